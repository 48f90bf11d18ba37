import Verif.Props.Equality
import Verif.Props.LinearConstraint
import Verif.Props.Lmi
import Verif.Props.HermitianLmi
import Verif.Spec.DualVariables

/-!
# Lemmas on dual variables
-/

namespace Verif.Dual

open Finset Spec

/-- Normal outcome with a property, for evaluation. -/
def okAnd {α : Type} (x : Outcome α) (P : α → Prop) : Prop :=
  match x with
  | .ok a => P a
  | _ => False

instance {α : Type} (x : Outcome α) (P : α → Prop) [DecidablePred P] : Decidable (okAnd x P) :=
  match x with
  | .ok a => inferInstanceAs (Decidable (P a))
  | .throws => inferInstanceAs (Decidable False)
  | .ub => inferInstanceAs (Decidable False)
  | .diverges => inferInstanceAs (Decidable False)

theorem of_okAnd {α : Type} {x : Outcome α} {P : α → Prop} (h : okAnd x P) : ∃ a, x = .ok a ∧ P a := by
  cases x with
  | ok a => exact ⟨a, rfl, h⟩
  | throws => exact absurd h id
  | ub => exact absurd h id
  | diverges => exact absurd h id

section Read

variable {R : Type} [Field R] [LinearOrder R]

theorem find_eq (es : List (Entry R)) (i : Nat) (cnt : Int) :
    find (cnt + i) cnt es = (es[i]?).map Entry.item := by
  induction es generalizing i cnt with
  | nil => rfl
  | cons e l ih =>
    cases i with
    | zero => simp [find]
    | succ i =>
      rw [find, if_neg (by push_cast; omega)]
      have : cnt + ((i + 1 : Nat) : Int) = (cnt + 1) + (i : Int) := by push_cast; ring
      rw [this, ih]
      rfl

theorem find_lt (es : List (Entry R)) (i cnt : Int) (h : i < cnt) : find i cnt es = none := by
  induction es generalizing cnt with
  | nil => rfl
  | cons e l ih => rw [find, if_neg (by omega), ih _ (by omega)]

theorem find_some {es : List (Entry R)} {i : Nat} {e : Entry R} (h : es[i]? = some e) :
    find i 0 es = some e.item := by
  have := find_eq es i 0
  rwa [zero_add, h] at this

theorem flatMap_getElem {n : Nat} (F : Nat → List (Option R)) (N : Nat) (hF : ∀ c, (F c).length = n)
    {r c : Nat} (hr : r < n) (hc : c < N) :
    ((List.range N).flatMap F)[c * n + r]? = (F c)[r]? := by
  induction N generalizing c F with
  | zero => omega
  | succ N ih =>
    rw [List.range_succ_eq_map, List.flatMap_cons, List.flatMap_map]
    cases c with
    | zero =>
      rw [zero_mul, zero_add, List.getElem?_append_left (by rw [hF]; exact hr)]
    | succ c =>
      rw [List.getElem?_append_right (by rw [hF]; nlinarith)]
      have : (c + 1) * n + r - (F 0).length = c * n + r := by
        rw [hF, Nat.add_mul]; omega
      rw [this]
      exact ih (fun c => F (c + 1)) (fun c => hF _) (by omega)

theorem colMajor_get {n : Nat} (M : Fin n → Fin n → R) (r c : Fin n) :
    (colMajor n M)[(c : Nat) * n + r]? = some (some (M r c)) := by
  have : colMajor n M = (List.range n).flatMap fun c =>
      if h : c < n then (List.finRange n).map fun r => some (M r ⟨c, h⟩)
      else List.replicate n none := by
    unfold colMajor
    rw [← List.map_coe_finRange_eq_range, List.flatMap_map]
    refine List.flatMap_congr fun c _ => ?_
    simp
  rw [this, flatMap_getElem _ _ _ r.isLt c.isLt]
  · simp
  · intro c
    split_ifs <;> simp

theorem colMajor_length {n : Nat} (M : Fin n → Fin n → R) : (colMajor n M).length = n * n := by
  simp [colMajor, List.length_flatMap]

theorem getDual_colMajor {es : List (Entry R)} {i : Nat} {e : Entry R} (h : es[i]? = some e) {n : Nat}
    (hn : e.item.dualSize = n * n) {M : Fin n → Fin n → R} (hM : e.item.dual = .ok (colMajor n M))
    (inf : Bool) (scale : R) (xr xc : Int) (hx : xr * xc = n * n) :
    getDualSize es i = n * n ∧ ∃ l, getDual es inf scale i xr xc = .ok (some l) ∧ l.length = n * n ∧
      ∀ r c : Fin n, l[(c : Nat) * n + r]? = some (some (if inf then M r c else M r c / scale)) := by
  have hs : getDualSize es i = n * n := by
    simp only [getDualSize, find_some h, hn]
  refine ⟨hs, if inf then colMajor n M else (colMajor n M).map fun v => v.map (· / scale), ?_, ?_, ?_⟩
  · rw [getDual, if_neg (by rw [hs, hx]; push_cast; exact fun h => h rfl), find_some h]
    simp only [hM, Outcome.bind_ok]
  · cases inf <;> simp [colMajor_length]
  · intro r c
    cases inf <;> simp [colMajor_get]

end Read

variable {R : Type} [Field R] [LinearOrder R] [IsStrictOrderedRing R]

/-- What a prepared constraint satisfies: the image of the new dual variable is the old one plus the
symmetric matrix, given by its lower triangle, times `y`. -/
def Prepared (x x' : Item R) (len : Nat) (s : Schur.Sys R) (y : Nat → R) : Prop :=
  ∀ j < len, (match x with
    | .equality o => j < o.q
    | _ => True) →
    adjoint x' j = s.AW j + ∑ i ∈ range len, s.G (max j i) (min j i) * y i

theorem prepared_linear (sqrt exp : R → R) (t : R) {o : Linear.Con R} {w : Linear.Ws R} {len : Nat}
    (hm : o.m = len) {s₀ s : Schur.Sys R} (hr : s₀.rows = len)
    (hs : (Item.linear o w).schur sqrt s₀ = .ok s) (y : Nat → R) :
    ∃ x', (Item.linear o w).prepareDual sqrt exp t len y = .ok x' ∧
      Prepared (.linear o w) x' len s y := by
  subst hm
  obtain ⟨t', e1, e2, e3, e4, -⟩ := Linear.C35_schur_init o w.W s₀ hr.ge
  have hs' : Linear.schur o w.W true s₀ = .ok s := hs
  rw [hs'] at e1
  simp only [Outcome.ok.injEq] at e1
  subst e1
  refine ⟨_, by
    simp only [Item.prepareDual, Linear.prepareStep, if_true, Linear.negativeSlack, lt_irrefl, if_false]
    rfl, ?_⟩
  intro j hj _
  have hj' : j < s₀.rows := by omega
  simp only [adjoint, Linear.takeStep, if_true, Linear.affineUpdate]
  rw [e4 j hj', if_pos hj]
  simp only [mul_add, sum_add_distrib, mul_zero, sub_zero]
  congr 1
  have hG : ∀ i ∈ range o.m, s.G (max j i) (min j i) * y i =
      ∑ r ∈ range o.n, o.A r j * w.W r ^ 2 * o.A r i * y i := by
    intro i hi
    have hi := mem_range.1 hi
    rw [e3 _ (by omega) _ (by omega), if_pos (by omega), sum_mul]
    refine sum_congr rfl fun r _ => ?_
    rcases le_total i j with h | h
    · rw [max_eq_left h, min_eq_right h]
    · rw [max_eq_right h, min_eq_left h]
      ring
  rw [sum_congr rfl hG, sum_comm]
  refine sum_congr rfl fun r _ => ?_
  rw [sum_mul, mul_sum, mul_sum]
  exact sum_congr rfl fun i _ => by ring

theorem sum_eq_trace {n : Nat} {A W : Lmi.Mat n R} (hA : A.transpose = A) :
    ∑ r : Fin n, ∑ c : Fin n, A r c * W r c = (A * W).trace := by
  rw [Matrix.trace, sum_comm]
  refine sum_congr rfl fun r _ => ?_
  rw [Matrix.diag_apply, Matrix.mul_apply]
  refine sum_congr rfl fun c _ => ?_
  rw [← Matrix.transpose_apply A c r, hA]

theorem prepared_lmi (sqrt exp : R → R) (t : R) {n : Nat} {o : Lmi.Con n R} {w : Lmi.Ws n R} {len : Nat}
    (hm : o.m = len) (ho : Lmi.Spec.Symmetric o) (hW : w.W.transpose = w.W)
    {s₀ s : Schur.Sys R} (hr : s₀.rows = len)
    (hs : (Item.lmi n o w).schur sqrt s₀ = .ok s) (y : Nat → R) :
    ∃ x', (Item.lmi n o w).prepareDual sqrt exp t len y = .ok x' ∧
      Prepared (.lmi n o w) x' len s y := by
  subst hm
  obtain ⟨⟨t', e1, e2, e3⟩, -⟩ := Lmi.C59_schur o ho w.W hW s₀ hr.ge
  have hs' : Lmi.schur o w.W true s₀ = .ok s := hs
  rw [hs'] at e1
  simp only [Outcome.ok.injEq] at e1
  subst e1
  refine ⟨_, by
    simp only [Item.prepareDual, Lmi.prepareAffine, Lmi.negativeSlack, lt_irrefl, if_false]
    rfl, ?_⟩
  intro j hj _
  simp only [adjoint, Lmi.affineUpdate, if_true]
  rw [sum_eq_trace (ho.1 j hj), e3.AW j hj, Matrix.mul_add, Matrix.trace_add]
  congr 1
  simp only [zero_smul, sub_zero, Matrix.mul_sum, Matrix.sum_mul, Matrix.trace_sum, Matrix.mul_smul,
    Matrix.smul_mul, Matrix.trace_smul, smul_eq_mul]
  refine sum_congr rfl fun i hi => ?_
  have hi := mem_range.1 hi
  rw [mul_comm]
  congr 1
  rcases le_total i j with h | h
  · rw [max_eq_left h, min_eq_right h, e3.G j hj i h]
  · rw [max_eq_right h, min_eq_left h, e3.G i hi j h, ← Matrix.mul_assoc, Matrix.trace_mul_comm,
      ← Matrix.mul_assoc, ← Matrix.mul_assoc, ← Matrix.mul_assoc, Matrix.trace_mul_comm]
    simp only [Matrix.mul_assoc]

theorem inner_eq {d n : Nat} (X Y : HermLmi.HMat d n R) :
    HermLmi.Spec.inner X Y = Hyper.traceInner X Y := by
  unfold Hyper.traceInner HermLmi.Spec.inner
  exact sum_congr rfl fun c _ => sum_comm

theorem inner_sum {d n : Nat} (X : HermLmi.HMat d n R) (L : List (HermLmi.HMat d n R)) (y : Nat → R)
    (f : HermLmi.HMat d n R → HermLmi.HMat d n R)
    (h1 : ∀ X Y, f (Hyper.add X Y) = Hyper.add (f X) (f Y))
    (h2 : ∀ X s, f (Hyper.scalarMultiply X s) = Hyper.scalarMultiply (f X) s) (k : Nat)
    (S : HermLmi.HMat d n R) :
    Hyper.traceInner X (f ((L.zipIdx k).foldl
      (fun S q => Hyper.add S (Hyper.scalarMultiply q.1 (y q.2))) S)) =
    Hyper.traceInner X (f S) +
      ∑ i ∈ range L.length, y (k + i) * Hyper.traceInner X (f (L.getD i fun _ => 0)) := by
  induction L generalizing k S with
  | nil => simp
  | cons a L ih =>
    rw [List.zipIdx_cons, List.foldl_cons, ih, h1, h2, Hyper.traceInner_comm X (Hyper.add _ _),
      Hyper.traceInner_add_left, Hyper.traceInner_scalar_left, List.length_cons, sum_range_succ',
      Hyper.traceInner_comm _ X, Hyper.traceInner_comm _ X]
    simp only [List.getD_cons_succ, List.getD_cons_zero, add_zero]
    have : ∀ i, k + 1 + i = k + (i + 1) := fun i => by omega
    simp only [this]
    ring

theorem prepared_hermitian (sqrt exp : R → R) (t : R) {d n : Nat} {hd : NeZero d}
    {o : HermLmi.Con d n R} {w : HermLmi.Ws d n R} {len : Nat}
    (hm : o.mats.length = len) (h3 : d = 1 ∨ d = 2 ∨ d = 4) (ho : HermLmi.Spec.HermitianData o)
    (hC : o.affine.isSome) (hW : Hyper.Spec.Hermitian w.W)
    {s₀ s : Schur.Sys R} (hr : s₀.rows = len)
    (hs : (Item.hermitian d n hd o w).schur sqrt s₀ = .ok s) (y : Nat → R) :
    ∃ x', (Item.hermitian d n hd o w).prepareDual sqrt exp t len y = .ok x' ∧
      Prepared (.hermitian d n hd o w) x' len s y := by
  subst hm
  obtain ⟨C, hC⟩ := Option.isSome_iff_exists.1 hC
  have hdim := Hyper.dim_of_assoc h3
  have hWc := (Hyper.hermitian_iff _).1 hW
  obtain ⟨⟨t', e1, e2, e3⟩, -⟩ := HermLmi.C62_schur hdim o ho w.W hW C hC s₀ hr.ge
  have hs' : HermLmi.schur o w.W true s₀ = .ok s := hs
  rw [hs'] at e1
  simp only [Outcome.ok.injEq] at e1
  subst e1
  refine ⟨_, by
    simp only [Item.prepareDual, HermLmi.prepareAffine, HermLmi.negativeSlack, hC, lt_irrefl, if_false]
    rfl, ?_⟩
  intro j hj _
  simp only [adjoint, ne_eq, not_true_eq_false, if_false]
  rw [e3.AW j hj, inner_eq, inner_eq, Hyper.traceInner_comm, Hyper.traceInner_add_left]
  rw [Hyper.traceInner_comm w.W]
  congr 1
  have hq : ∀ X : HermLmi.HMat d n R, Hyper.multiply (Hyper.multiply w.W X) w.W = Hyper.quadRep w.W X :=
    fun X => (Hyper.quadRep_assoc h3 w.W X).symm
  rw [Hyper.traceInner_comm, inner_sum _ _ _ (fun X => Hyper.multiply (Hyper.multiply w.W X) w.W)]
  · have hz : Hyper.traceInner (o.mats.getD j fun _ => 0)
        (Hyper.multiply (Hyper.multiply w.W (Hyper.scalarMultiply C (-0))) w.W) = 0 := by
      rw [Hyper.multiply_scalar, Hyper.scalar_multiply, Hyper.traceInner_comm,
        Hyper.traceInner_scalar_left, neg_zero, zero_mul]
    rw [hz, zero_add]
    refine sum_congr rfl fun i hi => ?_
    have hi := mem_range.1 hi
    rw [zero_add, mul_comm]
    refine congrArg (· * y i) ?_
    refine (congrArg (Hyper.traceInner _) (hq _)).trans ?_
    rcases le_total i j with h | h
    · rw [max_eq_left h, min_eq_right h, e3.G j hj i h, inner_eq]
    · rw [max_eq_right h, min_eq_left h, e3.G i hi j h, inner_eq, ← Hyper.traceInner_quadRep hdim hWc,
        Hyper.traceInner_comm]
  · intro X Y
    rw [Hyper.multiply_add, Hyper.add_multiply]
  · intro X c
    rw [Hyper.multiply_scalar, Hyper.scalar_multiply]

theorem prepared_equality (sqrt exp : R → R) (t : R) {o : Equality.Con R} {len : Nat}
    (hb : o.nb = o.p) (hm : o.q + o.p = len) {s₀ s : Schur.Sys R} (hr : s₀.rows = len)
    (hs : (Item.equality o).schur sqrt s₀ = .ok s) (y : Nat → R) :
    ∃ x', (Item.equality o).prepareDual sqrt exp t len y = .ok x' ∧
      Prepared (.equality o) x' len s y := by
  subst hm
  obtain ⟨t', e1, e2, e3, -, e4, -⟩ := Equality.C40_block o hb le_rfl s₀ hr
  have hs' : Equality.schur o true s₀ = .ok s := hs
  rw [hs'] at e1
  simp only [Outcome.ok.injEq] at e1
  subst e1
  refine ⟨_, by
    simp only [Item.prepareDual, Equality.prepareStep, hb, if_neg (by omega : ¬ o.q + o.p < o.p)]
    rfl, ?_⟩
  intro j hj hq
  simp only [adjoint, hq, if_true]
  rw [e4, zero_add, sum_range_add]
  have h0 : ∑ i ∈ range o.q, s.G (max j i) (min j i) * y i = 0 := by
    refine sum_eq_zero fun i hi => ?_
    have hi := mem_range.1 hi
    rw [e3, if_neg (by omega), if_neg (by omega), zero_mul]
  rw [h0, zero_add]
  refine sum_congr rfl fun r hr => ?_
  have hr := mem_range.1 hr
  rw [e3, if_pos (by omega), max_eq_right (by omega), min_eq_left (by omega)]
  congr 2 <;> omega

theorem prepared_good (sqrt exp : R → R) (t : R) {e : Entry R} {N : Nat} (he : Good e N)
    {s₀ s : Schur.Sys R} (hr : s₀.rows = e.vars.length) (hs : e.item.schur sqrt s₀ = .ok s)
    (y : Nat → R) :
    ∃ x', e.item.prepareDual sqrt exp t e.vars.length y = .ok x' ∧
      Prepared e.item x' e.vars.length s y := by
  obtain ⟨vars, x⟩ := e
  obtain ⟨-, -, h⟩ := he
  cases x with
  | linear o w => exact prepared_linear sqrt exp t h hr hs y
  | lmi n o w => exact prepared_lmi sqrt exp t h.1 h.2.1 h.2.2 hr hs y
  | hermitian d n hd o w =>
    exact prepared_hermitian sqrt exp t h.1 h.2.1 h.2.2.1 h.2.2.2.1 h.2.2.2.2 hr hs y
  | octonion n o w => exact absurd h id
  | soc o w => exact absurd h id
  | quad o w => exact absurd h id
  | equality o => exact prepared_equality sqrt exp t h.1 h.2 hr hs y
  | cost n Q => exact absurd h id

/-- A row of the contribution of a constraint to the linear system. -/
theorem entry_row {L : List Nat} (hL : L.Nodup) {N : Nat} (hN : ∀ v ∈ L, v < N) (G : Nat → Nat → R)
    (y : Nat → R) (u : Nat) :
    ∑ v ∈ range N, Sup.Spec.entry L G u v * y v =
      Sup.Spec.ventry L (fun j => ∑ i ∈ range L.length, G (max j i) (min j i) * y (L.getD i 0)) u := by
  unfold Sup.Spec.entry Sup.Spec.ventry
  by_cases hu : u ∈ L
  · simp only [hu, true_and, if_true, ite_mul, zero_mul]
    rw [← sum_filter]
    refine sum_bij' (fun v _ => L.idxOf v) (fun i _ => L.getD i 0) ?_ ?_ ?_ ?_ ?_
    · intro v hv
      exact mem_range.2 (List.idxOf_lt_length_of_mem (mem_filter.1 hv).2)
    · intro i hi
      have hi := mem_range.1 hi
      rw [List.getD_eq_getElem?_getD, List.getElem?_eq_getElem hi, Option.getD_some]
      exact mem_filter.2 ⟨mem_range.2 (hN _ (List.getElem_mem hi)), List.getElem_mem hi⟩
    · intro v hv
      have hv := List.idxOf_lt_length_of_mem (mem_filter.1 hv).2
      rw [List.getD_eq_getElem?_getD, List.getElem?_eq_getElem hv, Option.getD_some,
        List.getElem_idxOf]
    · intro i hi
      have hi := mem_range.1 hi
      simp only [List.getD_eq_getElem?_getD, List.getElem?_eq_getElem hi, Option.getD_some]
      exact hL.idxOf_getElem i hi
    · intro v hv
      have hv := List.idxOf_lt_length_of_mem (mem_filter.1 hv).2
      rw [List.getD_eq_getElem?_getD, List.getElem?_eq_getElem hv, Option.getD_some,
        List.getElem_idxOf]
  · simp [hu]

theorem gather_ok {N : Nat} {y : Nat → R} {L : List Nat} (h : ∀ v ∈ L, v < N) :
    gather N y L = .ok fun j => y (L.getD j 0) := by
  unfold gather
  refine if_neg ?_
  rintro ⟨v, hv, hN⟩
  exact absurd (h v hv) (not_lt.2 hN)

theorem prepareDual_sum (sqrt exp : R → R) (t : R) (N : Nat) (y : Nat → R) (es : List (Entry R))
    (he : ∀ e ∈ es, Good e N) :
    ∀ (s₀ s : Nat → Schur.Sys R), (∀ (i : Nat) (e : Entry R), es[i]? = some e → (s₀ i).rows = e.vars.length) →
    (∀ (i : Nat) (e : Entry R), es[i]? = some e → e.item.schur sqrt (s₀ i) = .ok (s i)) →
    ∃ es', prepareDual sqrt exp t N y es = .ok es' ∧ ∀ u, Primal es u →
      dualSum es' u = ((List.range es.length).map fun i =>
        Sup.Spec.ventry ((es.map Entry.vars).getD i []) (s i).AW u).sum +
        ∑ v ∈ range N, Sup.Spec.total (es.map Entry.vars) (fun i => (s i).G) u v * y v := by
  induction es with
  | nil =>
    intro s₀ s _ _
    exact ⟨[], rfl, fun u _ => by simp [dualSum, Sup.Spec.total]⟩
  | cons e es ih =>
    intro s₀ s h1 h2
    have hg := he e List.mem_cons_self
    obtain ⟨es', e1, e2⟩ := ih (fun e h => he e (List.mem_cons_of_mem _ h)) (fun i => s₀ (i + 1))
      (fun i => s (i + 1)) (fun i e h => h1 (i + 1) e h) (fun i e h => h2 (i + 1) e h)
    obtain ⟨x', f1, f2⟩ := prepared_good sqrt exp t hg (h1 0 e rfl) (h2 0 e rfl)
      (fun j => y (e.vars.getD j 0))
    refine ⟨⟨e.vars, x'⟩ :: es', ?_, ?_⟩
    · rw [prepareDual, gather_ok hg.2.1]
      simp only [Outcome.bind_ok, f1, e1]
    · intro u hu
      have hu' : Primal es u := fun e h => hu e (List.mem_cons_of_mem _ h)
      have key : Sup.Spec.ventry e.vars (adjoint x') u = Sup.Spec.ventry e.vars (s 0).AW u +
          ∑ v ∈ range N, Sup.Spec.entry e.vars (s 0).G u v * y v := by
        rw [entry_row hg.1 hg.2.1]
        unfold Sup.Spec.ventry
        by_cases hm : u ∈ e.vars
        · simp only [hm, if_true]
          refine f2 _ (List.idxOf_lt_length_of_mem hm) ?_
          have := hu e List.mem_cons_self
          cases hx : e.item <;> simp only [hx] at this ⊢
          exact this.resolve_right fun h => h hm
        · simp [hm]
      have hd : dualSum (⟨e.vars, x'⟩ :: es') u =
          Sup.Spec.ventry e.vars (adjoint x') u + dualSum es' u := by
        simp [dualSum]
      rw [hd, key, e2 u hu', List.length_cons, List.range_succ_eq_map, List.map_cons, List.sum_cons,
        List.map_map]
      have ht : ∀ v, Sup.Spec.total ((e :: es).map Entry.vars) (fun i => (s i).G) u v =
          Sup.Spec.entry e.vars (s 0).G u v +
            Sup.Spec.total (es.map Entry.vars) (fun i => (s (i + 1)).G) u v := by
        intro v
        unfold Sup.Spec.total
        rw [List.map_cons, List.length_cons, List.range_succ_eq_map, List.map_cons, List.sum_cons,
          List.map_map]
        rfl
      simp only [ht, add_mul, sum_add_distrib]
      have hm : ((List.range es.length).map ((fun i => Sup.Spec.ventry
          ((List.map Entry.vars (e :: es)).getD i []) (s i).AW u) ∘ Nat.succ)) =
          (List.range es.length).map fun i => Sup.Spec.ventry ((es.map Entry.vars).getD i [])
            (s (i + 1)).AW u := by
        refine List.map_congr_left fun i _ => ?_
        rfl
      rw [hm]
      have h0 : Sup.Spec.ventry ((List.map Entry.vars (e :: es)).getD 0 []) (s 0).AW u =
          Sup.Spec.ventry e.vars (s 0).AW u := rfl
      rw [h0]
      ring

end Verif.Dual
