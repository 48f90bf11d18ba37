import Mathlib.Tactic.Linarith
import Mathlib.Tactic.Ring
import Mathlib.Data.List.Forall2
import Verif.Spec.PythonErrors
import Verif.Lemmas.Solve

/-!
# Lemmas on the error report of the Python class
-/

namespace Verif.PyErr

open Spec

variable {R : Type}

theorem stretched_of_lt {m i : Nat} (h : i < m) : stretched m i = i := by
  unfold stretched
  split_ifs with e
  · omega
  · rfl

theorem add_ok [Add R] {a b : Mat R} (hr : a.rows = b.rows) (hc : a.cols = b.cols) :
    ∃ r, a.add b = .ok r ∧ IsMat r a.rows a.cols (fun p q => a.at' p q + b.at' p q) := by
  have e1 : broadcast a.rows b.rows = .ok a.rows := if_pos hr
  have e2 : broadcast a.cols b.cols = .ok a.cols := if_pos hc
  refine ⟨⟨a.rows, a.cols, fun i j => a.at' (stretched a.rows i) (stretched a.cols j) +
      b.at' (stretched b.rows i) (stretched b.cols j)⟩, ?_, rfl, rfl, ?_⟩
  · rw [Mat.add, e1]
    simp only [Outcome.bind_ok]
    rw [e2]
    simp only [Outcome.bind_ok]
  intro p hp q hq
  show a.at' (stretched a.rows p) (stretched a.cols q) + b.at' (stretched b.rows p) (stretched b.cols q) = _
  rw [← hr, ← hc, stretched_of_lt hp, stretched_of_lt hq]

theorem mul_ok [AddCommMonoid R] [Mul R] {a b : Mat R} (h : a.cols = b.rows) :
    a.mul b = .ok ⟨a.rows, b.cols, fun i j => ∑ k ∈ Finset.range a.cols, a.at' i k * b.at' k j⟩ :=
  if_neg (not_not.2 h)

theorem index_ok {n v : Nat} (h : v < n) : index n (Int.ofNat v) = .ok v :=
  if_pos ⟨by simp, by simpa using h⟩

section
variable [CommRing R]

/-- The loop of an operator that is not transposed. -/
theorem applyLoop_ok (a : LmiOp R) (x : Mat R) (hx : x.cols = 1) (vs : List Nat) (hv : ∀ v ∈ vs, v < x.rows) :
    ∀ (i : Nat) (y : Mat R), y.rows = a.rows → y.cols = a.cols →
    ∃ r, a.applyLoop x (vs.map Int.ofNat) i y = .ok r ∧ IsMat r a.rows a.cols
      (fun p q => y.at' p q + ∑ t : Fin vs.length, a.matrices p q (i + t) * x.at' vs[t] 0) := by
  induction vs with
  | nil => intro i y h1 h2; exact ⟨y, rfl, h1, h2, fun p _ q _ => by simp⟩
  | cons v vs ih =>
    intro i y h1 h2
    obtain ⟨z, hz, z1, z2, z3⟩ := add_ok (a := y) (b := ⟨a.rows, a.cols, fun p q => a.matrices p q i * x.at' v 0⟩) h1 h2
    obtain ⟨r, hr, r1, r2, r3⟩ := ih (fun w hw => hv w (List.mem_cons_of_mem _ hw)) (i + 1) z (z1.trans h1) (z2.trans h2)
    refine ⟨r, ?_, r1, r2, fun p hp q hq => ?_⟩
    · rw [List.map_cons, LmiOp.applyLoop, index_ok (hv v List.mem_cons_self)]
      simp only [Outcome.bind_ok]
      rw [if_neg (not_not.2 hx), hz]
      exact hr
    · rw [r3 p hp q hq]
      show z.at' p q + _ = _
      rw [z3 p (h1 ▸ hp) q (h2 ▸ hq)]
      show y.at' p q + a.matrices p q i * x.at' v 0 + _ = y.at' p q + ∑ t : Fin (vs.length + 1), _
      rw [Fin.sum_univ_succ, add_assoc]
      congr 2
      refine Finset.sum_congr rfl fun t _ => ?_
      simp only [Fin.val_succ, List.getElem_cons_succ, Fin.getElem_fin]
      rw [show i + 1 + (t : Nat) = i + (t + 1) by omega]

/-- The trace of a product of square matrices of order `n`. -/
theorem trace_mul {n : Nat} {a b c : Mat R} {f g : Nat → Nat → R} (ha : IsMat a n n f) (hb : IsMat b n n g)
    (h : a.mul b = .ok c) : c.trace = ∑ p ∈ Finset.range n, ∑ q ∈ Finset.range n, f p q * g q p := by
  rw [mul_ok (ha.2.1.trans hb.1.symm)] at h
  injection h with h
  subst h
  show ∑ i ∈ Finset.range (min a.rows b.cols), ∑ k ∈ Finset.range a.cols, a.at' i k * b.at' k i = _
  rw [ha.1, hb.2.1, ha.2.1, min_self]
  refine Finset.sum_congr rfl fun p hp => Finset.sum_congr rfl fun q hq => ?_
  rw [Finset.mem_range] at hp hq
  rw [ha.2.2 p hp q hq, hb.2.2 q hq p hp]

/-- The loop of a transposed operator. -/
theorem adjointLoop_ok (a : LmiOp R) (x : Mat R) {n m : Nat} {g : Nat → Nat → R} (hn : a.rows = n) (hc : a.cols = n)
    (hx : IsMat x n n g) (vs : List Nat) (hv : ∀ v ∈ vs, v < m) (hd : vs.Nodup) : ∀ (i : Nat) (y : Nat → R),
    ∃ r, a.adjointLoop x m (vs.map Int.ofNat) i y = .ok r ∧ ∀ j, r j = if j ∈ vs then ∑ t : Fin vs.length,
      if vs[t] = j then ∑ p ∈ Finset.range n, ∑ q ∈ Finset.range n, a.matrices p q (i + t) * g q p else 0 else y j := by
  induction vs with
  | nil => intro i y; exact ⟨y, rfl, fun j => by simp⟩
  | cons v vs ih =>
    intro i y
    have hd' := List.nodup_cons.1 hd
    have hm : (a.matrix i).mul x = .ok _ := mul_ok (hc.trans hx.1.symm)
    have ht := trace_mul (a := a.matrix i) (f := fun p q => a.matrices p q i) ⟨hn, hc, fun _ _ _ _ => rfl⟩ hx hm
    obtain ⟨r, hr, h⟩ := ih (fun w hw => hv w (List.mem_cons_of_mem _ hw)) hd'.2 (i + 1) (Function.update y v _)
    refine ⟨r, ?_, fun j => ?_⟩
    · rw [List.map_cons, LmiOp.adjointLoop, hm]
      simp only [Outcome.bind_ok]
      rw [index_ok (hv v List.mem_cons_self)]
      exact hr
    · rw [h j]
      have e : ∀ t : Fin vs.length, i + 1 + (t : Nat) = i + (t + 1) := fun t => by omega
      by_cases hj : j = v
      · subst hj
        rw [if_neg hd'.1, if_pos List.mem_cons_self, Function.update_self, ht]
        show _ = ∑ t : Fin (vs.length + 1), _
        rw [Fin.sum_univ_succ, Finset.sum_eq_zero (s := Finset.univ) (fun t _ => ?_), add_zero]
        · simp
        · refine if_neg fun hh => hd'.1 ?_
          rw [← hh]
          simp
      · by_cases hm : j ∈ vs
        · rw [if_pos hm, if_pos (List.mem_cons_of_mem _ hm)]
          show _ = ∑ t : Fin (vs.length + 1), _
          rw [Fin.sum_univ_succ]
          simp only [Fin.getElem_fin, Fin.val_zero, List.getElem_cons_zero, Fin.val_succ, List.getElem_cons_succ]
          refine (Finset.sum_congr rfl fun t _ => ?_).trans (zero_add _).symm |>.trans (congrArg₂ _ (if_neg (Ne.symm hj)).symm rfl)
          rw [e]
        · rw [if_neg hm, if_neg (fun hh => (List.mem_cons.1 hh).elim hj hm), Function.update_of_ne hj]

end

theorem foldl_min_isLeast [LinearOrder R] (f : Nat → R) : ∀ (n : Nat),
    IsLeast {a | ∃ i < n + 1, a = f i} (((List.range n).map fun i => f (i + 1)).foldl min (f 0)) := by
  intro n
  induction n with
  | zero => exact ⟨⟨0, by omega, rfl⟩, fun a ⟨i, hi, e⟩ => by rw [e, show i = 0 by omega]; exact le_rfl⟩
  | succ n ih =>
    rw [List.range_succ, List.map_append, List.foldl_append]
    simp only [List.map_cons, List.map_nil, List.foldl_cons, List.foldl_nil]
    refine ⟨?_, ?_⟩
    · rcases min_choice (((List.range n).map fun i => f (i + 1)).foldl min (f 0)) (f (n + 1)) with h | h
      · rw [h]
        obtain ⟨i, hi, e⟩ := ih.1
        exact ⟨i, by omega, e⟩
      · rw [h]; exact ⟨n + 1, by omega, rfl⟩
    · rintro a ⟨i, hi, rfl⟩
      rcases Nat.lt_succ_iff_lt_or_eq.1 hi with h | h
      · exact (min_le_left _ _).trans (ih.2 ⟨i, h, rfl⟩)
      · rw [h]; exact min_le_right _ _

theorem min_ok [LinearOrder R] {a : Mat R} {r : Nat} {f : Nat → Nat → R} (h : IsMat a r 1 f) (hr : 0 < r) :
    ∃ v, a.min = .ok v ∧ IsLeast {b | ∃ i < r, b = f i 0} v := by
  refine ⟨_, if_neg (fun hh => hh.elim (fun e => e h.2.1) (fun e => by have := h.1; omega)), ?_⟩
  have := foldl_min_isLeast (fun i => a.at' i 0) (a.rows - 1)
  rw [h.1, show r - 1 + 1 = r by omega] at this
  have e : {b | ∃ i < r, b = f i 0} = {b | ∃ i < r, b = a.at' i 0} := by
    ext b
    refine ⟨fun ⟨i, hi, e⟩ => ⟨i, hi, ?_⟩, fun ⟨i, hi, e⟩ => ⟨i, hi, ?_⟩⟩
    · rw [e, h.2.2 i hi 0 Nat.one_pos]
    · rw [e, h.2.2 i hi 0 Nat.one_pos]
  rw [e, h.1]
  exact this

theorem leastEig_ok (ext : Ext R) (hl : Local ext) {a : Mat R} {n : Nat} {f : Nat → Nat → R} (h : IsMat a n n f)
    (hn : 0 < n) : a.leastEig ext = .ok (ext.minEig n f) := by
  have e : a.leastEig ext = .ok (ext.minEig a.rows a.at') :=
    if_neg (fun hh => hh.elim (fun e => e (h.1.trans h.2.1.symm)) (fun e => by have := h.1; omega))
  rw [e, h.1, hl.minEig n _ f h.2.2]

/-- The entry of `self.A` for a constraint. -/
def opOf (m : Nat) : Con R → Operator R
  | .linear r A _ => .matrix ⟨r, m, A⟩
  | .dense n A _ => .lmi ⟨n, n, m, A, m, (List.range m).map Int.ofNat, false⟩
  | .sparse n vars A _ => .lmi ⟨n, n, vars.length, A, m, vars.map Int.ofNat, false⟩

/-- The entry of `self.c` for a constraint. -/
def cOf : Con R → Mat R
  | .linear r _ c => ⟨1, r, fun _ j => c j⟩
  | .dense n _ c => ⟨n, n, c⟩
  | .sparse n _ _ c => ⟨n, n, c⟩

theorem build_ok {m : Nat} : ∀ (cs : List (Con R)) (p : Conex R), (∀ c ∈ cs, c.Ok m) → p.m = m →
    build m cs p = .ok ⟨p.A ++ cs.map (opOf m), p.c ++ cs.map cOf, p.num + cs.length, m⟩ := by
  intro cs
  induction cs with
  | nil => intro p _ h; simp [build, ← h]
  | cons c cs ih =>
    intro p hc hm
    have h0 := hc c List.mem_cons_self
    have e : addCon m p c = .ok ⟨p.A ++ [opOf m c], p.c ++ [cOf c], p.num + 1, m⟩ := by
      cases c with
      | linear r A c => rfl
      | dense n A c =>
        show p.addDenseLmi n n m A ⟨n, n, c⟩ = _
        rw [Conex.addDenseLmi]
        simp [LmiOp.new, opOf, cOf]
      | sparse n vars A c =>
        show p.addSparseLmi n n vars.length A ⟨n, n, c⟩ (vars.map Int.ofNat) = _
        obtain ⟨_, h2, _, h4, _⟩ := h0
        rw [Conex.addSparseLmi, if_neg (by simpa using h2), if_neg]
        · simp [LmiOp.new, opOf, cOf, hm]
        · rintro ⟨v, hv, hh⟩
          obtain ⟨w, hw, rfl⟩ := List.mem_map.1 hv
          have := h4 w hw
          rw [hm] at hh
          simp at hh
          omega
    rw [build, e]
    simp only [Outcome.bind_ok]
    rw [ih _ (fun d hd => hc d (List.mem_cons_of_mem _ hd)) rfl]
    simp [Nat.add_assoc, Nat.add_comm]

section
variable [CommRing R]

theorem sum_range_list {m : Nat} (F : Nat → Nat → R) :
    ∑ t : Fin (List.range m).length, F t (List.range m)[t] = ∑ k ∈ Finset.range m, F k k := by
  have : ∀ t : Fin (List.range m).length, F t (List.range m)[t] = (fun k => F k k) t := fun t => by simp
  rw [Finset.sum_congr rfl fun t _ => this t, ← Finset.sum_range (fun k => F k k), List.length_range]

theorem slack_ok {m : Nat} {y : Mat R} {yv : Nat → R} (hy : IsMat y m 1 (fun i _ => yv i)) (c : Con R) (h : c.Ok m) :
    ∃ Ay s, (opOf m c).mul y = .ok Ay ∧ (cOf c).transpose.add Ay.neg = .ok s ∧
      IsMat s c.rows c.cols (c.slack m yv) := by
  have key : ∀ (n : Nat) (cm : Nat → Nat → R) (vars : List Nat) (A : Nat → Nat → Nat → R), (∀ p q, cm p q = cm q p) →
      (∀ v ∈ vars, v < m) → vars.length ≠ 0 → ∃ Ay s, LmiOp.mul ⟨n, n, vars.length, A, m, vars.map Int.ofNat, false⟩ y = .ok Ay ∧
      Mat.add (⟨n, n, fun i j => cm j i⟩ : Mat R) Ay.neg = .ok s ∧
      IsMat s n n (fun p q => cm p q - ∑ t : Fin vars.length, A p q t * yv vars[t]) := by
    intro n cm vars A hs hv hl
    obtain ⟨Ay, h1, r1, r2, r3⟩ := applyLoop_ok (⟨n, n, vars.length, A, m, vars.map Int.ofNat, false⟩ : LmiOp R) y hy.2.1
      vars (fun v h => hy.1 ▸ hv v h) 0 ⟨n, n, fun p q => A p q 0 * 0⟩ rfl rfl
    obtain ⟨s, h2, s1, s2, s3⟩ := add_ok (a := (⟨n, n, fun i j => cm j i⟩ : Mat R)) (b := Ay.neg) r1.symm r2.symm
    refine ⟨Ay, s, ?_, h2, s1, s2, fun p hp q hq => ?_⟩
    · rw [LmiOp.mul]
      refine (if_neg (by simp)).trans ((if_neg hl).trans h1)
    · rw [s3 p hp q hq]
      show cm q p + -Ay.at' p q = _
      rw [r3 p hp q hq, hs q p, ← sub_eq_add_neg]
      show cm p q - (A p q 0 * 0 + _) = cm p q - _
      rw [mul_zero, zero_add]
      congr 1
      refine Finset.sum_congr rfl fun t _ => ?_
      rw [Nat.zero_add, hy.2.2 vars[t] (hv _ (List.getElem_mem _)) 0 Nat.one_pos]
  cases c with
  | linear r A c =>
    have h1 : (⟨r, m, A⟩ : Mat R).mul y = .ok _ := mul_ok hy.1.symm
    obtain ⟨s, h2, s1, s2, s3⟩ := add_ok (a := (⟨r, 1, fun i _ => c i⟩ : Mat R)) 
      (b := Mat.neg ⟨r, y.cols, fun i j => ∑ k ∈ Finset.range m, A i k * y.at' k j⟩) rfl hy.2.1.symm
    refine ⟨_, s, h1, h2, s1, s2, fun p hp q hq => ?_⟩
    rw [s3 p hp q hq]
    show c p + -(∑ k ∈ Finset.range m, A p k * y.at' k q) = c p - _
    rw [← sub_eq_add_neg]
    congr 1
    refine Finset.sum_congr rfl fun k hk => ?_
    rw [hy.2.2 k (Finset.mem_range.1 hk) q hq]
  | dense n A c =>
    obtain ⟨_, h2, h3⟩ := h
    obtain ⟨Ay, s, e1, e2, e3⟩ := key n c (List.range m) A h3 (fun v hv => List.mem_range.1 hv) (by simp; omega)
    rw [show (List.range m).length = m from List.length_range] at e1
    refine ⟨Ay, s, e1, e2, e3.1, e3.2.1, fun p hp q hq => ?_⟩
    rw [e3.2.2 p hp q hq]
    show _ = c p q - _
    rw [← sum_range_list (fun t k => A p q t * yv k)]
  | sparse n vars A c =>
    obtain ⟨_, h2, _, h4, h5⟩ := h
    exact key n c vars A h5 h4 (by simpa using h2)

theorem adjoint_ok {m : Nat} {x : Mat R} (c : Con R) (h : c.Ok m) (h1 : x.rows = c.rows) (h2 : x.cols = c.cols) :
    ∃ At r, (opOf m c).transpose = .ok At ∧ At.mul x = .ok r ∧ IsMat r m 1 (fun j _ => c.adjoint x.at' j) := by
  have key : ∀ (n : Nat) (vars : List Nat) (A : Nat → Nat → Nat → R), x.rows = n → x.cols = n →
      (∀ v ∈ vars, v < m) → vars.Nodup → ∃ At r, LmiOp.transpose ⟨n, n, vars.length, A, m, vars.map Int.ofNat, false⟩ = .ok At ∧
      At.mul x = .ok r ∧ IsMat r m 1 (fun j _ => ∑ t : Fin vars.length,
        if vars[t] = j then ∑ p ∈ Finset.range n, ∑ q ∈ Finset.range n, A p q t * x.at' q p else 0) := by
    intro n vars A x1 x2 hv hd
    obtain ⟨r, e1, e2⟩ := adjointLoop_ok (⟨n, n, vars.length, A, m, vars.map Int.ofNat, true⟩ : LmiOp R) x rfl rfl
      (m := m) ⟨x1, x2, fun _ _ _ _ => rfl⟩ vars hv hd 0 (fun _ => 0)
    refine ⟨⟨n, n, vars.length, A, m, vars.map Int.ofNat, true⟩, ⟨m, 1, fun i _ => r i⟩, ?_, ?_, rfl, rfl, fun j hj _ _ => ?_⟩
    · simp [LmiOp.transpose, LmiOp.new]
    · rw [LmiOp.mul]
      refine (if_pos rfl).trans ((if_neg (by simp)).trans ?_)
      rw [Int.toNat_natCast, e1]
      rfl
    · show r j = _
      rw [e2 j]
      by_cases hm : j ∈ vars
      · rw [if_pos hm]
        exact Finset.sum_congr rfl fun t _ => by rw [Nat.zero_add]
      · rw [if_neg hm]
        refine (Finset.sum_eq_zero fun t _ => if_neg fun hh => hm ?_).symm
        rw [← hh]
        exact List.getElem_mem _
  cases c with
  | linear r A c =>
    refine ⟨_, _, rfl, mul_ok h1.symm, rfl, h2, fun j _ q hq => ?_⟩
    show ∑ k ∈ Finset.range r, A k j * x.at' k q = _
    rw [show q = 0 by omega]
    rfl
  | dense n A c =>
    obtain ⟨At, r, e1, e2, e3⟩ := key n (List.range m) A h1 h2 (fun v hv => List.mem_range.1 hv) List.nodup_range
    rw [show (List.range m).length = m from List.length_range] at e1
    refine ⟨.lmi At, r, ?_, e2, e3.1, e3.2.1, fun j hj q hq => ?_⟩
    · show (do let t ← LmiOp.transpose _; Outcome.ok (Operator.lmi t)) = _
      rw [e1]; rfl
    · rw [e3.2.2 j hj q hq]
      show _ = ∑ p ∈ Finset.range n, ∑ q ∈ Finset.range n, A p q j * x.at' q p
      refine (sum_range_list (fun t k => if k = j then ∑ p ∈ Finset.range n, ∑ q ∈ Finset.range n, A p q t * x.at' q p else 0)).trans ?_
      rw [Finset.sum_ite_eq' (Finset.range m) j, if_pos (Finset.mem_range.2 hj)]
  | sparse n vars A c =>
    obtain ⟨_, _, h3, h4, _⟩ := h
    obtain ⟨At, r, e1, e2, e3⟩ := key n vars A h1 h2 h4 h3
    refine ⟨.lmi At, r, ?_, e2, e3⟩
    show (do let t ← LmiOp.transpose _; Outcome.ok (Operator.lmi t)) = _
    rw [e1]; rfl

/-- What the loop leaves in `err.x_dot_s`: every vector inequality starts anew. -/
def kept (m : Nat) (yv : Nat → R) (a : R) (z : Con R × Mat R) : R :=
  if z.1.vector then z.1.inner (z.1.slack m yv) z.2.at' else a + z.1.inner (z.1.slack m yv) z.2.at'

/-- The sum of `A' x`. -/
def adjoints (l : List (Con R × Mat R)) (j : Nat) : R := (l.map fun z => z.1.adjoint z.2.at' j).sum

variable [LinearOrder R]

/-- The state after the constraints `l`. -/
structure Inv (ext : Ext R) (m : Nat) (yv : Nat → R) (cls : Lists R) (l : List (Con R × Mat R)) (st : State R) : Prop where
  ax : (l = [] ∧ st.Ax = none) ∨ ∃ a, st.Ax = some a ∧ IsMat a m 1 (fun j _ => adjoints l j)
  sa : List.Forall₂ (fun s z => IsMat s z.1.rows z.1.cols (z.1.slack m yv)) st.sa l
  dot : IsMat st.xDotS 1 1 (fun _ _ => l.foldl (kept m yv) 0)
  minS : ∃ vs, st.lists.minS = cls.minS ++ vs ∧ List.Forall₂ (fun v z => z.1.IsMin ext (z.1.slack m yv) v) vs l
  minX : ∃ vs, st.lists.minX = cls.minX ++ vs ∧ List.Forall₂ (fun v z => z.1.IsMin ext z.2.at' v) vs l

theorem get_ok {l : List α} {i : Nat} {a : α} (h : l[i]? = some a) : get l i = .ok a := by
  unfold get; rw [h]

theorem isMin_congr {ext : Ext R} (hl : Local ext) {f g : Nat → Nat → R} {v : R} (c : Con R) (hc : 0 < c.cols)
    (h : ∀ p < c.rows, ∀ q < c.cols, f p q = g p q) (hv : c.IsMin ext f v) : c.IsMin ext g v := by
  cases c with
  | linear r A c =>
    have : {a | ∃ i < r, a = f i 0} = {a | ∃ i < r, a = g i 0} := by
      ext a
      refine ⟨fun ⟨i, hi, e⟩ => ⟨i, hi, ?_⟩, fun ⟨i, hi, e⟩ => ⟨i, hi, ?_⟩⟩
      · rw [e, h i hi 0 hc]
      · rw [e, h i hi 0 hc]
    show IsLeast _ _
    rw [← this]
    exact hv
  | dense n A c => exact hv.trans (hl.minEig _ _ _ h)
  | sparse n vars A c => exact hv.trans (hl.minEig _ _ _ h)

theorem cols_pos {m : Nat} (c : Con R) (h : c.Ok m) : 0 < c.cols := by
  cases c with
  | linear r A c => exact Nat.one_pos
  | dense n A c => exact Nat.lt_of_lt_of_le Nat.zero_lt_two h.1
  | sparse n vars A c => exact Nat.lt_of_lt_of_le Nat.zero_lt_two h.1

theorem step_ok {ext : Ext R} (hl : Local ext) {m : Nat} {y : Mat R} {yv : Nat → R} (hy : IsMat y m 1 (fun i _ => yv i))
    {cls : Lists R} {p : Conex R} {xa : List (Mat R)} {l : List (Con R × Mat R)} {st : State R} {c : Con R} {x : Mat R}
    (hc : c.Ok m) (h1 : x.rows = c.rows) (h2 : x.cols = c.cols) (hA : p.A[l.length]? = some (opOf m c))
    (hC : p.c[l.length]? = some (cOf c)) (hx : xa[l.length]? = some x) (hi : Inv ext m yv cls l st) :
    ∃ st', p.errorStep ext y xa st l.length = .ok st' ∧ Inv ext m yv cls (l ++ [(c, x)]) st' := by
  obtain ⟨Ay, s, e1, e2, hs⟩ := slack_ok hy c hc
  obtain ⟨At, r, e3, e4, hr⟩ := adjoint_ok c hc h1 h2
  have hax : ∃ a, accumulate st.Ax r = .ok a ∧
      IsMat a m 1 (fun j _ => adjoints (l ++ [(c, x)]) j) := by
    rcases hi.ax with ⟨e, h⟩ | ⟨a, h, ha⟩
    · refine ⟨r, by rw [h]; rfl, hr.1, hr.2.1, fun j hj q hq => ?_⟩
      rw [hr.2.2 j hj q hq, e]
      simp [adjoints]
    · obtain ⟨b, hb, b1, b2, b3⟩ := add_ok (a := a) (b := r) (ha.1.trans hr.1.symm) (ha.2.1.trans hr.2.1.symm)
      refine ⟨b, by rw [h]; exact hb, b1.trans ha.1, b2.trans ha.2.1, fun j hj q hq => ?_⟩
      rw [b3 j (ha.1 ▸ hj) q (ha.2.1 ▸ hq)]
      show a.at' j q + r.at' j q = _
      rw [ha.2.2 j hj q hq, hr.2.2 j hj q hq]
      simp [adjoints]
  obtain ⟨a, e5, ha⟩ := hax
  have fin : ∀ (d : Mat R) (u v : R), IsMat d 1 1 (fun _ _ => kept m yv (l.foldl (kept m yv) 0) (c, x)) →
      c.IsMin ext (c.slack m yv) u → c.IsMin ext x.at' v →
      Inv ext m yv cls (l ++ [(c, x)]) ⟨some a, st.sa ++ [s], d, ⟨st.lists.minS ++ [u], st.lists.minX ++ [v]⟩⟩ := by
    intro d u v hd hu hv
    obtain ⟨us, m1, m2⟩ := hi.minS
    obtain ⟨vs, m3, m4⟩ := hi.minX
    refine ⟨.inr ⟨a, rfl, ha⟩, List.rel_append hi.sa (.cons hs .nil), ?_, ⟨us ++ [u], ?_, List.rel_append m2 (.cons hu .nil)⟩,
      ⟨vs ++ [v], ?_, List.rel_append m4 (.cons hv .nil)⟩⟩
    · rw [List.foldl_append]; exact hd
    · show st.lists.minS ++ [u] = _
      rw [m1, List.append_assoc]
    · show st.lists.minX ++ [v] = _
      rw [m3, List.append_assoc]
  have mat : ∀ n : Nat, 2 ≤ n → (cOf c).rows = n → (cOf c).cols = n → c.rows = n → c.cols = n → c.vector = false →
      (∀ (f g : Nat → Nat → R), c.inner f g = ∑ p ∈ Finset.range n, ∑ q ∈ Finset.range n, f p q * g q p) →
      (∀ f v, v = ext.minEig n f → c.IsMin ext f v) →
      ∃ st', p.errorStep ext y xa st l.length = .ok st' ∧ Inv ext m yv cls (l ++ [(c, x)]) st' := by
    intro n hn c1 c2 c3 c4 cv ci cm
    have hs' : IsMat s n n (c.slack m yv) := by rw [← c3]; nth_rw 2 [c3]; rw [← c4]; exact hs
    have hx' : IsMat x n n x.at' := ⟨h1.trans c3, h2.trans c4, fun _ _ _ _ => rfl⟩
    have e6 : s.mul x = .ok _ := mul_ok (hs'.2.1.trans hx'.1.symm)
    have ht := trace_mul hs' hx' e6
    obtain ⟨d, e7, d1, d2, d3⟩ := add_ok (a := st.xDotS) 
      (b := ⟨1, 1, fun _ _ => Mat.trace ⟨s.rows, x.cols, fun i j => ∑ k ∈ Finset.range s.cols, s.at' i k * x.at' k j⟩⟩) hi.dot.1 hi.dot.2.1
    refine ⟨_, ?_, fin d _ _ ⟨d1.trans hi.dot.1, d2.trans hi.dot.2.1, fun i hi1 j hj1 => ?_⟩ (cm _ _ rfl) (cm _ _ rfl)⟩
    · rw [Conex.errorStep, get_ok hA, get_ok hC, get_ok hx]
      simp only [Outcome.bind_ok]
      rw [e1]
      simp only [Outcome.bind_ok]
      rw [e3]
      simp only [Outcome.bind_ok]
      rw [e4]
      simp only [Outcome.bind_ok]
      rw [e5]
      simp only [Outcome.bind_ok]
      rw [e2]
      simp only [Outcome.bind_ok]
      rw [if_neg (by show ¬((cOf c).cols = 1 ∨ (cOf c).rows = 1); omega), e6]
      simp only [Outcome.bind_ok]
      rw [e7]
      simp only [Outcome.bind_ok]
      rw [leastEig_ok ext hl hs' (by omega), leastEig_ok ext hl hx' (by omega)]
      simp only [Outcome.bind_ok]
    · rw [d3 i (hi.dot.1 ▸ hi1) j (hi.dot.2.1 ▸ hj1)]
      show st.xDotS.at' i j + Mat.trace _ = _
      rw [hi.dot.2.2 i hi1 j hj1, ht, kept, if_neg (by rw [cv]; simp), ci]
  cases c with
  | linear r A cc =>
    have hs' : IsMat s r 1 _ := hs
    have e6 : s.transpose.mul x = .ok _ := mul_ok (hs'.1.trans h1.symm)
    obtain ⟨u, e7, hu⟩ := min_ok hs' hc
    obtain ⟨v, e8, hv⟩ := min_ok (a := x) (f := x.at') ⟨h1, h2, fun _ _ _ _ => rfl⟩ hc
    refine ⟨_, ?_, fin ⟨s.cols, x.cols, fun i j => ∑ k ∈ Finset.range s.rows, s.at' k i * x.at' k j⟩ u v
      ⟨hs'.2.1, h2, fun i hi1 j hj1 => ?_⟩ hu hv⟩
    · rw [Conex.errorStep, get_ok hA, get_ok hC, get_ok hx]
      simp only [Outcome.bind_ok]
      rw [e1]
      simp only [Outcome.bind_ok]
      rw [e3]
      simp only [Outcome.bind_ok]
      rw [e4]
      simp only [Outcome.bind_ok]
      rw [e5]
      simp only [Outcome.bind_ok]
      rw [e2]
      simp only [Outcome.bind_ok]
      rw [if_pos (show (cOf (Con.linear r A cc)).transpose.rows = 1 ∨ (cOf (Con.linear r A cc)).transpose.cols = 1 from
        Or.inr rfl), e6]
      simp only [Outcome.bind_ok]
      rw [e7, e8]
      simp only [Outcome.bind_ok]
      rfl
    · show ∑ k ∈ Finset.range s.rows, s.at' k i * x.at' k j = _
      refine Eq.trans ?_ (if_pos rfl).symm
      rw [hs'.1, show i = 0 by omega, show j = 0 by omega]
      refine Finset.sum_congr rfl fun k hk => ?_
      rw [hs'.2.2 k (Finset.mem_range.1 hk) 0 Nat.one_pos]
  | dense n A cc => exact mat n hc.1 rfl rfl rfl rfl rfl (fun _ _ => rfl) (fun _ _ h => h)
  | sparse n vars A cc => exact mat n hc.1 rfl rfl rfl rfl rfl (fun _ _ => rfl) (fun _ _ h => h)

/-- The whole loop. -/
theorem loop_ok {ext : Ext R} (hl : Local ext) {m : Nat} {y : Mat R} {yv : Nat → R} (hy : IsMat y m 1 (fun i _ => yv i))
    {cls : Lists R} {p : Conex R} {xa : List (Mat R)} : ∀ (post pre : List (Con R × Mat R)) (st : State R),
    (∀ z ∈ post, z.1.Ok m ∧ z.2.rows = z.1.rows ∧ z.2.cols = z.1.cols) →
    p.A = (pre ++ post).map (fun z => opOf m z.1) → p.c = (pre ++ post).map (fun z => cOf z.1) →
    xa = (pre ++ post).map Prod.snd → Inv ext m yv cls pre st →
    ∃ st', p.errorLoop ext y xa (List.range' pre.length post.length) st = .ok st' ∧ Inv ext m yv cls (pre ++ post) st' := by
  intro post
  induction post with
  | nil => intro pre st _ _ _ _ hi; exact ⟨st, rfl, by rw [List.append_nil]; exact hi⟩
  | cons z post ih =>
    intro pre st hz hA hC hx hi
    obtain ⟨g1, g2, g3⟩ := hz z List.mem_cons_self
    obtain ⟨st1, e1, i1⟩ := step_ok hl hy (p := p) (xa := xa) (c := z.1) (x := z.2) g1 g2 g3 (by rw [hA]; simp) (by rw [hC]; simp)
      (by rw [hx]; simp) hi
    obtain ⟨st2, e2, i2⟩ := ih (pre ++ [z]) st1 (fun w hw => hz w (List.mem_cons_of_mem _ hw)) (by rw [hA]; simp)
      (by rw [hC]; simp) (by rw [hx]; simp) i1
    refine ⟨st2, ?_, by simpa using i2⟩
    rw [List.length_cons, List.range'_succ, Conex.errorLoop, e1]
    simp only [Outcome.bind_ok]
    rw [← e2]
    simp

end

end Verif.PyErr
