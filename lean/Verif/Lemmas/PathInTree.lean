import Verif.Model.CliqueOrdering
import Verif.Spec.CliqueOrdering
import Mathlib.Tactic.Linarith

namespace Verif.Clique

open Spec

/-- A forest on `0..n-1` given by parent, height and a root label. -/
structure Forest (n : Nat) (par ht r : Nat → Nat) : Prop where
  par_lt : ∀ e, e < n → par e < n
  node : ∀ e, e < n → (par e = e ∧ ht e = 0 ∧ r e = e) ∨
    (par e ≠ e ∧ ht e = ht (par e) + 1 ∧ r e = r (par e))

theorem Spec.Anc.refl (par : Nat → Nat) (e : Nat) : Anc par e e := ⟨0, rfl⟩

theorem Spec.Anc.step {par : Nat → Nat} {a e : Nat} (h : Anc par a (par e)) : Anc par a e := by
  obtain ⟨k, hk⟩ := h
  exact ⟨k + 1, by rw [Function.iterate_succ_apply]; exact hk⟩

theorem Spec.Anc.parent (par : Nat → Nat) (e : Nat) : Anc par (par e) e := Anc.step (Anc.refl _ _)

theorem Spec.Anc.trans {par : Nat → Nat} {a b c : Nat} (h : Anc par a b) (h' : Anc par b c) :
    Anc par a c := by
  obtain ⟨k, rfl⟩ := h
  obtain ⟨l, rfl⟩ := h'
  exact ⟨k + l, Function.iterate_add_apply par k l c⟩

theorem Spec.Anc.cases {par : Nat → Nat} {a e : Nat} (h : Anc par a e) : a = e ∨ Anc par a (par e) := by
  obtain ⟨k, hk⟩ := h
  cases k with
  | zero => exact .inl hk.symm
  | succ k => exact .inr ⟨k, by rw [← hk, Function.iterate_succ_apply]⟩

namespace Forest

variable {n : Nat} {par ht r : Nat → Nat}

theorem anc_lt (F : Forest n par ht r) {a e : Nat} (he : e < n) (h : Anc par a e) : a < n := by
  obtain ⟨k, hk⟩ := h
  induction k generalizing e with
  | zero => simpa [← hk] using he
  | succ k ih => exact ih (F.par_lt e he) (by rw [← hk, Function.iterate_succ_apply])

theorem anc_root (F : Forest n par ht r) {a e : Nat} (he : e < n) (h : Anc par a e) :
    r a = r e := by
  obtain ⟨k, hk⟩ := h
  induction k generalizing e with
  | zero => simp [← hk]
  | succ k ih =>
    have := ih (F.par_lt e he) (by rw [← hk, Function.iterate_succ_apply])
    rw [this]
    rcases F.node e he with ⟨h1, _⟩ | ⟨_, _, h1⟩
    · rw [h1]
    · exact h1.symm

/-- A proper ancestor has a smaller height. -/
theorem anc_ht (F : Forest n par ht r) {a e : Nat} (he : e < n) (h : Anc par a e) :
    a = e ∨ ht a < ht e := by
  obtain ⟨k, hk⟩ := h
  induction k generalizing e with
  | zero => exact .inl hk.symm
  | succ k ih =>
    rcases F.node e he with ⟨h1, _⟩ | ⟨_, h2, _⟩
    · rw [Function.iterate_succ_apply, h1] at hk
      exact ih he hk
    · rcases ih (F.par_lt e he) (by rw [← hk, Function.iterate_succ_apply]) with rfl | h3
      · right; omega
      · right; omega

theorem anc_antisymm (F : Forest n par ht r) {a e : Nat} (ha : a < n) (he : e < n)
    (h : Anc par a e) (h' : Anc par e a) : a = e := by
  rcases F.anc_ht he h with h | h
  · exact h
  · rcases F.anc_ht ha h' with h' | h'
    · exact h'.symm
    · omega

theorem ht_pos (F : Forest n par ht r) {e : Nat} (he : e < n) (h : 0 < ht e) :
    par e ≠ e ∧ ht e = ht (par e) + 1 ∧ r e = r (par e) := by
  rcases F.node e he with ⟨_, h1, _⟩ | h1
  · omega
  · exact h1

/-- `PathInTree` returns the path through the lowest common ancestor. -/
theorem pathInTree_spec (F : Forest n par ht r) :
    ∀ (fuel x y : Nat), x < n → y < n → r x = r y → ht x + ht y ≤ fuel →
      ∃ (ini : List Nat) (l : Nat), pathInTree par ht fuel x y = some (ini ++ [l]) ∧
        Anc par l x ∧ Anc par l y ∧
        (∀ a, Anc par a x → Anc par a y → Anc par a l) ∧
        (∀ f, f ∈ ini ↔ (Anc par f x ∨ Anc par f y) ∧ Anc par l f ∧ f ≠ l) := by
  intro fuel
  induction fuel with
  | zero =>
    intro x y hx hy hr hf
    have h1 : ht x = 0 := by omega
    have h2 : ht y = 0 := by omega
    have hxy : x = y := by
      rcases F.node x hx with ⟨_, _, h3⟩ | ⟨_, h3, _⟩
      · rcases F.node y hy with ⟨_, _, h4⟩ | ⟨_, h4, _⟩
        · rw [← h3, ← h4, hr]
        · omega
      · omega
    subst hxy
    refine ⟨[], x, by simp [pathInTree], Anc.refl _ _, Anc.refl _ _, fun a h _ => h, ?_⟩
    intro f
    constructor
    · intro h; simp at h
    · rintro ⟨h1, h2, h3⟩
      exact absurd (F.anc_antisymm (F.anc_lt hx (h1.elim id id)) hx (h1.elim id id) h2) h3
  | succ fuel ih =>
    intro x y hx hy hr hf
    by_cases hxy : x = y
    · subst hxy
      refine ⟨[], x, by simp [pathInTree], Anc.refl _ _, Anc.refl _ _, fun a h _ => h, ?_⟩
      intro f
      constructor
      · intro h; simp at h
      · rintro ⟨h1, h2, h3⟩
        exact absurd (F.anc_antisymm (F.anc_lt hx (h1.elim id id)) hx (h1.elim id id) h2) h3
    · by_cases hlt : ht x < ht y
      · obtain ⟨p1, p2, p3⟩ := F.ht_pos hy (by omega)
        obtain ⟨ini, l, e1, e2, e3, e4, e5⟩ :=
          ih x (par y) hx (F.par_lt y hy) (by rw [hr, p3]) (by omega)
        have hyl : y ≠ l := by
          rintro rfl
          rcases F.anc_ht (F.par_lt y hy) e3 with h | h
          · exact p1 h.symm
          · omega
        refine ⟨y :: ini, l, ?_, e2, Anc.step e3, ?_, ?_⟩
        · simp [pathInTree, hxy, hlt, e1]
        · intro a h1 h2
          refine e4 a h1 ?_
          rcases h2.cases with rfl | h2
          · exfalso
            rcases F.anc_ht hx h1 with h | h
            · exact hxy h.symm
            · omega
          · exact h2
        · intro f
          rw [List.mem_cons, e5]
          constructor
          · rintro (rfl | ⟨h1, h2, h3⟩)
            · exact ⟨.inr (Anc.refl _ _), Anc.step e3, hyl⟩
            · exact ⟨h1.imp id Anc.step, h2, h3⟩
          · rintro ⟨h1 | h1, h2, h3⟩
            · exact .inr ⟨.inl h1, h2, h3⟩
            · rcases h1.cases with rfl | h1
              · exact .inl rfl
              · exact .inr ⟨.inr h1, h2, h3⟩
      · have hpos : 0 < ht x := by
          by_contra h0
          have h1 : ht x = 0 := by omega
          have h2 : ht y = 0 := by omega
          rcases F.node x hx with ⟨_, _, h3⟩ | ⟨_, h3, _⟩
          · rcases F.node y hy with ⟨_, _, h4⟩ | ⟨_, h4, _⟩
            · exact hxy (by rw [← h3, ← h4, hr])
            · omega
          · omega
        obtain ⟨p1, p2, p3⟩ := F.ht_pos hx hpos
        obtain ⟨ini, l, e1, e2, e3, e4, e5⟩ :=
          ih (par x) y (F.par_lt x hx) hy (by rw [← hr, p3]) (by omega)
        have hxl : x ≠ l := by
          rintro rfl
          rcases F.anc_ht (F.par_lt x hx) e2 with h | h
          · exact p1 h.symm
          · omega
        refine ⟨x :: ini, l, ?_, Anc.step e2, e3, ?_, ?_⟩
        · simp [pathInTree, hxy, hlt, e1]
        · intro a h1 h2
          refine e4 a ?_ h2
          rcases h1.cases with rfl | h1
          · exfalso
            rcases F.anc_ht hy h2 with h | h
            · exact hxy h
            · omega
          · exact h1
        · intro f
          rw [List.mem_cons, e5]
          constructor
          · rintro (rfl | ⟨h1, h2, h3⟩)
            · exact ⟨.inl (Anc.refl _ _), Anc.step e2, hxl⟩
            · exact ⟨h1.imp Anc.step id, h2, h3⟩
          · rintro ⟨h1 | h1, h2, h3⟩
            · rcases h1.cases with rfl | h1
              · exact .inl rfl
              · exact .inr ⟨.inl h1, h2, h3⟩
            · exact .inr ⟨.inr h1, h2, h3⟩

/-- Between different trees the loop of `PathInTree` never ends. -/
theorem pathInTree_none (F : Forest n par ht r) :
    ∀ (fuel x y : Nat), x < n → y < n → r x ≠ r y → pathInTree par ht fuel x y = none := by
  intro fuel
  have hroot : ∀ e, e < n → r (par e) = r e := fun e he => F.anc_root he (Anc.parent par e)
  induction fuel with
  | zero =>
    intro x y _ _ hr
    have : x ≠ y := fun h => hr (by rw [h])
    simp [pathInTree, this]
  | succ fuel ih =>
    intro x y hx hy hr
    have : x ≠ y := fun h => hr (by rw [h])
    unfold pathInTree
    rw [if_neg this]
    split
    · rw [ih x (par y) hx (F.par_lt y hy) (by rw [hroot y hy]; exact hr)]; rfl
    · rw [ih (par x) y (F.par_lt x hx) hy (by rw [hroot x hx]; exact hr)]; rfl

end Forest
end Verif.Clique
