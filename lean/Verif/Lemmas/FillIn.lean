import Verif.Lemmas.PickOrder

namespace Verif.Clique

open Spec

/-- Two ancestors of one node are comparable. -/
theorem Spec.Anc.total {par : Nat → Nat} {a b x : Nat} (ha : Anc par a x) (hb : Anc par b x) :
    Anc par a b ∨ Anc par b a := by
  obtain ⟨k, rfl⟩ := ha
  obtain ⟨l, rfl⟩ := hb
  rcases le_total k l with h | h
  · right
    refine ⟨l - k, ?_⟩
    rw [← Function.iterate_add_apply]
    congr 1; omega
  · left
    refine ⟨k - l, ?_⟩
    rw [← Function.iterate_add_apply]
    congr 1; omega

/-- Invariant of `FillIn`. `proc c v` says that clique `c` was processed for variable `v`. The owner
of a variable is the lowest common ancestor of the processed cliques, and the separators got exactly
the cliques on the paths from processed cliques to the owner. -/
structure FInv (n : Nat) (par : Nat → Nat) (sep0 sn0 : Nat → List Nat)
    (proc : Nat → Nat → Prop) (st : FState) : Prop where
  ok : ∀ c v, proc c v → c < n ∧ v ∈ sn0 c
  sorted : ∀ e, SSorted (st.sep e)
  fresh : ∀ v, ¬ st.elim v < n → (∀ c, ¬ proc c v) ∧ ∀ e, v ∈ st.sep e ↔ v ∈ sep0 e
  owned : ∀ v, st.elim v < n →
    (∃ c, proc c v) ∧ (∀ c, proc c v → Anc par (st.elim v) c) ∧
    (∀ a, (∀ c, proc c v → Anc par a c) → Anc par a (st.elim v)) ∧
    (∀ e, v ∈ st.sep e ↔ v ∈ sep0 e ∨
      ∃ c, proc c v ∧ Anc par e c ∧ Anc par (st.elim v) e ∧ e ≠ st.elim v)

theorem foldl_upd_union (v : Nat) (l : List Nat) :
    ∀ (sp : Nat → List Nat), (∀ e, SSorted (sp e)) →
      (∀ e, SSorted (l.foldl (fun sp e => upd sp e (setUnion (sp e) [v])) sp e)) ∧
      (∀ u e, u ∈ l.foldl (fun sp e => upd sp e (setUnion (sp e) [v])) sp e ↔
        u ∈ sp e ∨ (u = v ∧ e ∈ l)) := by
  induction l with
  | nil => intro sp h; exact ⟨h, by simp⟩
  | cons x l ih =>
    intro sp h
    simp only [List.foldl_cons]
    have hs : ∀ e, SSorted (upd sp x (setUnion (sp x) [v]) e) := by
      intro e
      by_cases he : e = x
      · subst he; rw [upd_same]; exact setUnion_sorted (h e) (by simp)
      · rw [upd_ne _ _ he]; exact h e
    obtain ⟨i1, i2⟩ := ih _ hs
    refine ⟨i1, fun u e => ?_⟩
    rw [i2]
    by_cases he : e = x
    · subst he
      rw [upd_same, mem_setUnion]
      simp only [List.mem_cons, true_or, and_true]
      tauto
    · rw [upd_ne _ _ he]
      simp only [List.mem_cons, he, false_or]

variable {cs : List (List Nat)} {root : Nat} {o : List Nat} {par ht r : Nat → Nat}
  {sep0 : Nat → List Nat}

theorem fillStep_spec (T : TreeOK cs root o par ht sep0 r) (t : TreeOrder)
    (htp : t.parent = par) (hth : t.height = ht) (hto : t.order.length = cs.length)
    (hsn : ∀ c v, v ∈ t.sn c → v ∈ cliqueAt cs c)
    {proc : Nat → Nat → Prop} {st : FState} (h : FInv cs.length par sep0 t.sn proc st)
    {c v : Nat} (hc : c < cs.length) (hv : v ∈ t.sn c) :
    ∃ st', fillStep t c st v = .ok st' ∧
      FInv cs.length par sep0 t.sn (fun c' v' => proc c' v' ∨ (c' = c ∧ v' = v)) st' := by
  unfold fillStep
  rw [hto, htp, hth]
  have hok : ∀ c' v', (proc c' v' ∨ (c' = c ∧ v' = v)) → c' < cs.length ∧ v' ∈ t.sn c' := by
    rintro c' v' (h1 | ⟨rfl, rfl⟩)
    · exact h.ok c' v' h1
    · exact ⟨hc, hv⟩
  by_cases hel : st.elim v < cs.length
  · rw [if_pos hel]
    obtain ⟨⟨c0, hc0⟩, ho2, ho3, ho4⟩ := h.owned v hel
    have hrw : r c = r (st.elim v) := by
      have h1 := h.ok c0 v hc0
      rw [T.forest.anc_root h1.1 (ho2 c0 hc0)]
      exact T.conn c hc c0 h1.1 v (hsn c v hv) (hsn c0 v h1.2)
    obtain ⟨ini, l, e1, e2, e3, e4, e5⟩ := T.forest.pathInTree_spec
      (ht c + ht (st.elim v)) c (st.elim v) hc hel hrw (le_refl _)
    rw [e1]
    simp only [List.getLastD_concat, List.dropLast_concat]
    obtain ⟨f1, f2⟩ := foldl_upd_union v ini st.sep h.sorted
    have hl : l < cs.length := T.forest.anc_lt hc e2
    refine ⟨_, rfl, ⟨hok, f1, ?_, ?_⟩⟩
    · intro u hu
      simp only at hu
      have huv : u ≠ v := by
        rintro rfl
        rw [upd_same] at hu; exact hu hl
      rw [upd_ne _ _ huv] at hu
      obtain ⟨g1, g2⟩ := h.fresh u hu
      refine ⟨?_, ?_⟩
      · rintro c' (h1 | ⟨_, h1⟩)
        · exact g1 c' h1
        · exact huv h1
      · intro e
        simp only
        rw [f2, g2]
        simp [huv]
    · intro u hu
      simp only at hu ⊢
      by_cases huv : u = v
      · subst huv
        rw [upd_same] at hu ⊢
        refine ⟨⟨c, .inr ⟨rfl, rfl⟩⟩, ?_, ?_, ?_⟩
        · rintro c' (h1 | ⟨rfl, _⟩)
          · exact e3.trans (ho2 c' h1)
          · exact e2
        · intro a ha
          exact e4 a (ha c (.inr ⟨rfl, rfl⟩)) (ho3 a (fun c' h1 => ha c' (.inl h1)))
        · intro e
          rw [f2, ho4]
          constructor
          · rintro ((h1 | ⟨c', p1, p2, p3, p4⟩) | ⟨_, h1⟩)
            · exact .inl h1
            · refine .inr ⟨c', .inl p1, p2, e3.trans p3, ?_⟩
              rintro rfl
              exact p4 (T.forest.anc_antisymm hl hel e3 p3)
            · obtain ⟨q1, q2, q3⟩ := (e5 e).1 h1
              rcases q1 with q1 | q1
              · exact .inr ⟨c, .inr ⟨rfl, rfl⟩, q1, q2, q3⟩
              · exact .inr ⟨c0, .inl hc0, q1.trans (ho2 c0 hc0), q2, q3⟩
          · rintro (h1 | ⟨c', p1 | ⟨rfl, _⟩, p2, p3, p4⟩)
            · exact .inl (.inl h1)
            · rcases Anc.total p2 (ho2 c' p1) with q | q
              · exact .inr ⟨rfl, (e5 e).2 ⟨.inr q, p3, p4⟩⟩
              · by_cases hew : e = st.elim u
                · exact .inr ⟨rfl, (e5 e).2 ⟨.inr (hew ▸ Anc.refl par _), p3, p4⟩⟩
                · exact .inl (.inr ⟨c', p1, p2, q, hew⟩)
            · exact .inr ⟨rfl, (e5 e).2 ⟨.inl p2, p3, p4⟩⟩
      · rw [upd_ne _ _ huv] at hu ⊢
        obtain ⟨⟨c1, g1⟩, g2, g3, g4⟩ := h.owned u hu
        refine ⟨⟨c1, .inl g1⟩, ?_, ?_, ?_⟩
        · rintro c' (h1 | ⟨_, h1⟩)
          · exact g2 c' h1
          · exact absurd h1 huv
        · exact fun a ha => g3 a (fun c' h1 => ha c' (.inl h1))
        · intro e
          rw [f2, g4]
          simp [huv]
  · rw [if_neg hel]
    obtain ⟨g1, g2⟩ := h.fresh v hel
    refine ⟨_, rfl, ⟨hok, h.sorted, ?_, ?_⟩⟩
    · intro u hu
      simp only at hu
      have huv : u ≠ v := by
        rintro rfl
        rw [upd_same] at hu; exact hu hc
      rw [upd_ne _ _ huv] at hu
      obtain ⟨k1, k2⟩ := h.fresh u hu
      refine ⟨?_, k2⟩
      rintro c' (h1 | ⟨_, h1⟩)
      · exact k1 c' h1
      · exact huv h1
    · intro u hu
      simp only at hu ⊢
      by_cases huv : u = v
      · subst huv
        rw [upd_same] at hu ⊢
        refine ⟨⟨c, .inr ⟨rfl, rfl⟩⟩, ?_, ?_, ?_⟩
        · rintro c' (h1 | ⟨rfl, _⟩)
          · exact absurd h1 (g1 c')
          · exact Anc.refl _ _
        · exact fun a ha => ha c (.inr ⟨rfl, rfl⟩)
        · intro e
          rw [g2]
          constructor
          · exact .inl
          · rintro (h1 | ⟨c', p1 | ⟨rfl, _⟩, p2, p3, p4⟩)
            · exact h1
            · exact absurd p1 (g1 c')
            · exact absurd (T.forest.anc_antisymm (T.forest.anc_lt hc p2) hc p2 p3) p4
      · rw [upd_ne _ _ huv] at hu ⊢
        obtain ⟨⟨c1, k1⟩, k2, k3, k4⟩ := h.owned u hu
        refine ⟨⟨c1, .inl k1⟩, ?_, ?_, ?_⟩
        · rintro c' (h1 | ⟨_, h1⟩)
          · exact k2 c' h1
          · exact absurd h1 huv
        · exact fun a ha => k3 a (fun c' h1 => ha c' (.inl h1))
        · intro e
          rw [k4]
          simp [huv]

theorem FInv.congr {n : Nat} {sn0 : Nat → List Nat} {p q : Nat → Nat → Prop} {st : FState}
    (h : FInv n par sep0 sn0 p st) (hpq : ∀ c v, p c v ↔ q c v) : FInv n par sep0 sn0 q st := by
  have : p = q := by
    funext c v
    exact propext (hpq c v)
  exact this ▸ h

theorem fillClique_spec (T : TreeOK cs root o par ht sep0 r) (t : TreeOrder)
    (htp : t.parent = par) (hth : t.height = ht) (hto : t.order.length = cs.length)
    (hsn : ∀ c v, v ∈ t.sn c → v ∈ cliqueAt cs c) {c : Nat} (hc : c < cs.length) :
    ∀ (vs : List Nat) {proc : Nat → Nat → Prop} {st : FState},
      FInv cs.length par sep0 t.sn proc st → (∀ v ∈ vs, v ∈ t.sn c) →
      ∃ st', fillClique t c st vs = .ok st' ∧
        FInv cs.length par sep0 t.sn (fun c' v' => proc c' v' ∨ (c' = c ∧ v' ∈ vs)) st' := by
  intro vs
  induction vs with
  | nil =>
    intro proc st h _
    exact ⟨st, rfl, h.congr (by simp)⟩
  | cons v vs ih =>
    intro proc st h hvs
    obtain ⟨st1, e1, h1⟩ := fillStep_spec T t htp hth hto hsn h hc (hvs v (by simp))
    obtain ⟨st2, e2, h2⟩ := ih h1 (fun u hu => hvs u (by simp [hu]))
    refine ⟨st2, by simp [fillClique, e1, Outcome.bind, e2], h2.congr ?_⟩
    intro c' v'
    simp only [List.mem_cons]
    tauto

theorem fillLoop_spec (T : TreeOK cs root o par ht sep0 r) (t : TreeOrder)
    (htp : t.parent = par) (hth : t.height = ht) (hto : t.order.length = cs.length)
    (hsn : ∀ c v, v ∈ t.sn c → v ∈ cliqueAt cs c) :
    ∀ (l : List Nat) {proc : Nat → Nat → Prop} {st : FState},
      FInv cs.length par sep0 t.sn proc st → (∀ c ∈ l, c < cs.length) →
      ∃ st', fillLoop t st l = .ok st' ∧
        FInv cs.length par sep0 t.sn (fun c' v' => proc c' v' ∨ (c' ∈ l ∧ v' ∈ t.sn c')) st' := by
  intro l
  induction l with
  | nil =>
    intro proc st h _
    exact ⟨st, rfl, h.congr (by simp)⟩
  | cons c l ih =>
    intro proc st h hl
    obtain ⟨st1, e1, h1⟩ := fillClique_spec T t htp hth hto hsn (hl c (by simp)) (t.sn c) h
      (fun v hv => hv)
    obtain ⟨st2, e2, h2⟩ := ih h1 (fun u hu => hl u (by simp [hu]))
    refine ⟨st2, by simp [fillLoop, e1, Outcome.bind, e2], h2.congr ?_⟩
    intro c' v'
    simp only [List.mem_cons]
    constructor
    · rintro ((h | ⟨rfl, h⟩) | h)
      · exact .inl h
      · exact .inr ⟨.inl rfl, h⟩
      · exact .inr ⟨.inr h.1, h.2⟩
    · rintro (h | ⟨rfl | h, h'⟩)
      · exact .inl (.inl h)
      · exact .inl (.inr ⟨rfl, h'⟩)
      · exact .inr ⟨h, h'⟩

/-- What `PickCliqueOrder` computes, in terms of the clique tree. `own v` is the owner of `v`. -/
structure SymOK (cs : List (List Nat)) (root : Nat) (S : Symbolic) (own : Nat → Nat)
    (ht r : Nat → Nat) : Prop where
  perm : S.order.Perm (List.range cs.length)
  last : S.order.getLast? = some root
  forest : Forest cs.length S.parent ht r
  before : ∀ i, i < cs.length → S.parent i ≠ i → Before S.order.reverse (S.parent i) i
  own_lt : ∀ c, c < cs.length → ∀ v ∈ cliqueAt cs c, own v < cs.length
  own_anc : ∀ c, c < cs.length → ∀ v ∈ cliqueAt cs c, Anc S.parent (own v) c
  own_low : ∀ v a, own v < cs.length →
    (∀ c, c < cs.length → v ∈ cliqueAt cs c → Anc S.parent a c) → Anc S.parent a (own v)
  own_ex : ∀ v, own v < cs.length → ∃ c, c < cs.length ∧ v ∈ cliqueAt cs c
  mem_sn : ∀ e v, v ∈ S.supernodes e ↔
    own v = e ∧ ∃ c, c < cs.length ∧ v ∈ cliqueAt cs c
  mem_sep : ∀ e v, v ∈ S.separators e ↔
    ∃ c, c < cs.length ∧ v ∈ cliqueAt cs c ∧ Anc S.parent e c ∧ Anc S.parent (own v) e ∧ e ≠ own v
  sn_sorted : ∀ e, SSorted (S.supernodes e)
  sep_sorted : ∀ e, SSorted (S.separators e)

/-- Going up from a clique that contains `v` one reaches the clique whose supernode holds `v`. -/
theorem top_exists (hsorted : SortedCliques cs) (T : TreeOK cs root o par ht sep0 r) (v : Nat) :
    ∀ (k c : Nat), ht c ≤ k → c < cs.length → v ∈ cliqueAt cs c →
      ∃ t, t < cs.length ∧ Anc par t c ∧ v ∈ cliqueAt cs t ∧ v ∉ sep0 t ∧
        ∀ e, Anc par e c → Anc par t e → e ≠ t → v ∈ sep0 e := by
  intro k
  induction k with
  | zero =>
    intro c hk hc hv
    have hp : par c = c := by
      rcases T.forest.node c hc with ⟨h1, _⟩ | ⟨_, h1, _⟩
      · exact h1
      · omega
    refine ⟨c, hc, Anc.refl _ _, hv, by rw [T.sepRoot c hc hp]; simp, ?_⟩
    intro e h1 h2 h3
    exact absurd (T.forest.anc_antisymm (T.forest.anc_lt hc h1) hc h1 h2) h3
  | succ k ih =>
    intro c hk hc hv
    by_cases hs : v ∈ sep0 c
    · have hp : par c ≠ c := fun h => by rw [T.sepRoot c hc h] at hs; simp at hs
      rw [T.sepNode c hc hp] at hs
      have hvp := ((mem_setInter (sorted_cliqueAt hsorted _) (sorted_cliqueAt hsorted _) v).1 hs).1
      have hh : ht (par c) ≤ k := by
        rcases T.forest.node c hc with ⟨h1, _⟩ | ⟨_, h1, _⟩
        · exact absurd h1 hp
        · omega
      obtain ⟨t, t1, t2, t3, t4, t5⟩ := ih (par c) hh (T.forest.par_lt c hc) hvp
      refine ⟨t, t1, t2.step, t3, t4, ?_⟩
      intro e h1 h2 h3
      rcases h1.cases with rfl | h1
      · rw [T.sepNode _ hc hp]; exact hs
      · exact t5 e h1 h2 h3
    · refine ⟨c, hc, Anc.refl _ _, hv, hs, ?_⟩
      intro e h1 h2 h3
      exact absurd (T.forest.anc_antisymm (T.forest.anc_lt hc h1) hc h1 h2) h3

theorem fillIn_spec (hsorted : SortedCliques cs) (s : PState) (r : Nat → Nat)
    (T : TreeOK cs root s.order s.parent s.height s.sep r) (numVars : Nat)
    (hnv : ∀ c, c < cs.length → ∀ v ∈ cliqueAt cs c, v < numVars) :
    ∃ S own ht r, fillIn (finishOrder cs s) numVars = .ok S ∧ SymOK cs root S own ht r := by
  have hlen : s.order.length = cs.length := by simpa using T.perm.length_eq
  have hsepS : ∀ e, SSorted (s.sep e) := by
    intro e
    by_cases he : e < cs.length
    · by_cases hp : s.parent e = e
      · rw [T.sepRoot e he hp]; simp
      · rw [T.sepNode e he hp]; exact setInter_sorted (sorted_cliqueAt hsorted _) _
    · rw [T.sepOut e (by omega)]; simp
  have hsn : ∀ c v, v ∈ (finishOrder cs s).sn c → v ∈ cliqueAt cs c := fun c v hv =>
    (setDiff_sublist _ _).subset hv
  have hsnIff : ∀ c v, v ∈ (finishOrder cs s).sn c ↔ v ∈ cliqueAt cs c ∧ v ∉ s.sep c :=
    fun c v => mem_setDiff (sorted_cliqueAt hsorted c) (hsepS c) v
  have hol : (finishOrder cs s).order.length = cs.length := by simp [finishOrder, hlen]
  have hinit : FInv cs.length s.parent s.sep (finishOrder cs s).sn (fun _ _ => False)
      { elim := fun _ => (finishOrder cs s).order.length + 1, sep := (finishOrder cs s).sep } := by
    constructor
    · intro c v h; exact h.elim
    · exact hsepS
    · intro v _
      exact ⟨fun c h => h, fun e => Iff.rfl⟩
    · intro v hv
      simp only at hv
      omega
  have hmemO : ∀ c, c ∈ (finishOrder cs s).order ↔ c < cs.length := by
    intro c
    simp only [finishOrder, List.mem_reverse]
    rw [T.perm.mem_iff]; simp
  obtain ⟨st, e1, h1⟩ := fillLoop_spec T (finishOrder cs s) rfl rfl hol hsn
    (finishOrder cs s).order hinit (fun c hc => (hmemO c).1 hc)
  have h2 : FInv cs.length s.parent s.sep (finishOrder cs s).sn
      (fun c v => c < cs.length ∧ v ∈ cliqueAt cs c ∧ v ∉ s.sep c) st := by
    refine h1.congr (fun c v => ?_)
    rw [hmemO, hsnIff]
    simp
  have hown : ∀ c, c < cs.length → ∀ v ∈ cliqueAt cs c, st.elim v < cs.length := by
    intro c hc v hv
    by_contra hcon
    obtain ⟨g1, _⟩ := h2.fresh v hcon
    obtain ⟨t, t1, _, t3, t4, _⟩ := top_exists hsorted T v (s.height c) c (le_refl _) hc hv
    exact g1 t ⟨t1, t3, t4⟩
  have hanc : ∀ c, c < cs.length → ∀ v ∈ cliqueAt cs c, Anc s.parent (st.elim v) c := by
    intro c hc v hv
    obtain ⟨t, t1, t2, t3, t4, _⟩ := top_exists hsorted T v (s.height c) c (le_refl _) hc hv
    exact ((h2.owned v (hown c hc v hv)).2.1 t ⟨t1, t3, t4⟩).trans t2
  refine ⟨_, st.elim, s.height, r, by simp [fillIn, e1, Outcome.bind]; rfl, ?_⟩
  constructor
  · exact (List.reverse_perm _).trans T.perm
  · simp [finishOrder, T.head]
  · exact T.forest
  · intro i hi hp
    simpa [finishOrder] using T.before i hi hp
  · exact hown
  · exact hanc
  · intro v a hv ha
    exact (h2.owned v hv).2.2.1 a (fun c hc => ha c hc.1 hc.2.1)
  · intro v hv
    obtain ⟨⟨c, hc⟩, _⟩ := h2.owned v hv
    exact ⟨c, hc.1, hc.2.1⟩
  · intro e v
    simp only [mem_sortNat, List.mem_filter, List.mem_range, Bool.and_eq_true, decide_eq_true_eq,
      beq_iff_eq, hol]
    constructor
    · rintro ⟨_, h3, h4⟩
      obtain ⟨⟨c, hc⟩, _⟩ := h2.owned v h3
      exact ⟨h4, c, hc.1, hc.2.1⟩
    · rintro ⟨h3, c, hc, hv⟩
      exact ⟨hnv c hc v hv, hown c hc v hv, h3⟩
  · intro e v
    simp only [mem_sortNat]
    constructor
    · intro hv
      have key : v ∈ s.sep e → ∃ c, c < cs.length ∧ v ∈ cliqueAt cs c ∧ Anc s.parent e c ∧
          Anc s.parent (st.elim v) e ∧ e ≠ st.elim v := by
        intro hv0
        have he : e < cs.length := by
          by_contra hcon
          rw [T.sepOut e (by omega)] at hv0; simp at hv0
        have hp : s.parent e ≠ e := fun h => by rw [T.sepRoot e he h] at hv0; simp at hv0
        rw [T.sepNode e he hp] at hv0
        obtain ⟨v1, v2⟩ :=
          (mem_setInter (sorted_cliqueAt hsorted _) (sorted_cliqueAt hsorted _) v).1 hv0
        have hpl := T.forest.par_lt e he
        refine ⟨e, he, v2, Anc.refl _ _, hanc e he v v2, ?_⟩
        intro heq
        have ha := hanc _ hpl v v1
        rw [← heq] at ha
        exact hp (T.forest.anc_antisymm hpl he (Anc.parent _ _) ha)
      by_cases hel : st.elim v < cs.length
      · rcases ((h2.owned v hel).2.2.2 e).1 hv with hv0 | ⟨c, hc, h3, h4, h5⟩
        · exact key hv0
        · exact ⟨c, hc.1, hc.2.1, h3, h4, h5⟩
      · exact key (((h2.fresh v hel).2 e).1 hv)
    · rintro ⟨c, hc, hv, h3, h4, h5⟩
      obtain ⟨t, t1, t2, t3, t4, t5⟩ := top_exists hsorted T v (s.height c) c (le_refl _) hc hv
      refine ((h2.owned v (hown c hc v hv)).2.2.2 e).2 ?_
      rcases Anc.total h3 t2 with h | h
      · exact .inr ⟨t, ⟨t1, t3, t4⟩, h, h4, h5⟩
      · by_cases het : e = t
        · subst het
          exact .inr ⟨e, ⟨t1, t3, t4⟩, Anc.refl _ _, h4, h5⟩
        · exact .inl (t5 e h3 h het)
  · intro e
    exact sortNat_sorted (List.nodup_range.filter _)
  · intro e
    exact sortNat_sorted (h2.sorted e).nodup

theorem foldl_max_spec (l : List Nat) (x : Nat) :
    x ≤ l.foldl (fun m a => if m < a then a else m) x ∧
    (∀ a ∈ l, a ≤ l.foldl (fun m a => if m < a then a else m) x) ∧
    (l.foldl (fun m a => if m < a then a else m) x = x ∨
      l.foldl (fun m a => if m < a then a else m) x ∈ l) := by
  induction l generalizing x with
  | nil => simp
  | cons b l ih =>
    simp only [List.foldl_cons]
    by_cases hb : x < b
    · rw [if_pos hb]
      obtain ⟨h1, h2, h3⟩ := ih b
      refine ⟨by omega, ?_, ?_⟩
      · intro a ha
        rcases List.mem_cons.1 ha with rfl | ha
        · exact h1
        · exact h2 a ha
      · right
        rcases h3 with h3 | h3
        · rw [h3]; simp
        · exact List.mem_cons_of_mem _ h3
    · rw [if_neg hb]
      obtain ⟨h1, h2, h3⟩ := ih x
      refine ⟨h1, ?_, ?_⟩
      · intro a ha
        rcases List.mem_cons.1 ha with rfl | ha
        · omega
        · exact h2 a ha
      · exact h3.imp id (List.mem_cons_of_mem _)

/-- `GetMax` returns the largest index that occurs. -/
theorem getMax_spec (cs : List (List Nat)) (h : cliqueAt cs 0 ≠ []) :
    ∃ m, getMax cs = .ok m ∧ (∀ c, c < cs.length → ∀ v ∈ cliqueAt cs c, v ≤ m) ∧
      ∃ c, c < cs.length ∧ m ∈ cliqueAt cs c := by
  cases cs with
  | nil => simp [cliqueAt] at h
  | cons c cs =>
    cases c with
    | nil => simp [cliqueAt] at h
    | cons x c =>
      obtain ⟨h1, h2, h3⟩ := foldl_max_spec ((x :: c) :: cs).flatten x
      refine ⟨_, rfl, ?_, ?_⟩
      · intro i hi v hv
        refine h2 v ?_
        rw [List.mem_flatten]
        refine ⟨((x :: c) :: cs)[i], List.getElem_mem hi, ?_⟩
        simpa [cliqueAt, List.getElem?_eq_getElem hi] using hv
      · rcases h3 with h3 | h3
        · refine ⟨0, by simp, ?_⟩
          rw [h3]
          simp [cliqueAt]
        · rw [List.mem_flatten] at h3
          obtain ⟨d, hd, hm⟩ := h3
          obtain ⟨i, hi, rfl⟩ := List.getElem_of_mem hd
          refine ⟨i, hi, ?_⟩
          rw [cliqueAt, List.getElem?_eq_getElem hi]
          exact hm

theorem betterRoot_lt (cs : List (List Nat)) (edges : List (Nat × Nat)) (h : 0 < cs.length) :
    betterRoot cs edges < cs.length := by
  have key : ∀ (w : Nat → Nat) (l : List Nat) (b : Nat), b < cs.length →
      (∀ i ∈ l, i < cs.length) →
      l.foldl (fun best i => if w best < w i then i else best) b < cs.length := by
    intro w l
    induction l with
    | nil => intro b hb _; simpa using hb
    | cons x l ih =>
      intro b hb hl
      simp only [List.foldl_cons]
      refine ih _ ?_ (fun i hi => hl i (by simp [hi]))
      split
      · exact hl x (by simp)
      · exact hb
  exact key _ _ 0 h (by simp)

/-- The root actually used. -/
theorem getCliqueEliminationOrder_spec (hsorted : SortedCliques cs) (vl : Option (Nat → Bool))
    (root : Int) (hn : 0 < cs.length) (hr : root < cs.length) :
    ∃ s r rt, getCliqueEliminationOrder cs vl root = .ok (finishOrder cs s) ∧ rt < cs.length ∧
      (root ≠ -1 → rt = root.toNat) ∧ TreeOK cs rt s.order s.parent s.height s.sep r := by
  have hrt : root.toNat < cs.length := by omega
  obtain ⟨s, r, e, h, hl⟩ := pickHelper_spec hsorted vl hrt
  unfold getCliqueEliminationOrder
  rw [if_neg (by omega), e]
  simp only
  by_cases h1 : root = -1
  · rw [if_pos h1]
    have hb := betterRoot_lt cs s.edges hn
    rw [if_neg (by omega)]
    obtain ⟨s', r', e', h', hl'⟩ := pickHelper_spec hsorted vl hb
    rw [e']
    exact ⟨s', r', _, rfl, hb, fun h => absurd h1 h, h'.treeOK hl' hb⟩
  · rw [if_neg h1]
    exact ⟨s, r, _, rfl, hrt, fun _ => rfl, h.treeOK hl hrt⟩

/-- Main lemma about `PickCliqueOrder`. -/
theorem pickCliqueOrder_spec (hsorted : SortedCliques cs) (vl : Option (Nat → Bool))
    (root : Int) (hr : root < cs.length) (h0 : cliqueAt cs 0 ≠ []) :
    ∃ S own ht r rt, pickCliqueOrder cs vl root = .ok S ∧ rt < cs.length ∧
      (root ≠ -1 → rt = root.toNat) ∧ SymOK cs rt S own ht r := by
  have hn : 0 < cs.length := by
    cases cs with
    | nil => simp [cliqueAt] at h0
    | cons => simp
  obtain ⟨s, r, rt, e, h1, h2, T⟩ := getCliqueEliminationOrder_spec hsorted vl root hn hr
  obtain ⟨m, em, hm, _⟩ := getMax_spec cs h0
  obtain ⟨S, own, ht, r', e', h'⟩ := fillIn_spec hsorted s r T (m + 1)
    (fun c hc v hv => Nat.lt_succ_of_le (hm c hc v hv))
  exact ⟨S, own, ht, r', rt, by simp [pickCliqueOrder, e, em, e', Outcome.bind], h1, h2, h'⟩

open Spec

theorem cliqueAt_of_getElem? {cs : List (List Nat)} {i : Nat} {c : List Nat}
    (h : cs[i]? = some c) : cliqueAt cs i = c ∧ i < cs.length := by
  refine ⟨by simp [cliqueAt, h], ?_⟩
  exact (List.getElem?_eq_some_iff.1 h).1

theorem getElem?_of_cliqueAt {cs : List (List Nat)} {i : Nat} (h : i < cs.length) :
    cs[i]? = some (cliqueAt cs i) := by
  simp [cliqueAt, List.getElem?_eq_getElem h]

theorem pick_inversion {cs : List (List Nat)} (hs : Increasing cs) {vl : Option (Nat → Bool)}
    {root : Int} {S : Symbolic} (h : pickCliqueOrder cs vl root = .ok S) :
    root < cs.length ∧ cliqueAt cs 0 ≠ [] ∧ ∃ own ht r rt, rt < cs.length ∧
      (root ≠ -1 → rt = root.toNat) ∧ SymOK cs rt S own ht r := by
  have h0 : cliqueAt cs 0 ≠ [] := by
    intro h0
    have : getMax cs = .throws := by
      cases cs with
      | nil => rfl
      | cons c cs =>
        simp [cliqueAt] at h0
        subst h0
        rfl
    unfold pickCliqueOrder at h
    rw [this] at h
    cases hg : getCliqueEliminationOrder cs vl root <;> simp [hg, Outcome.bind] at h
  have hn : cs.length ≠ 0 := by
    intro hn
    rw [List.length_eq_zero_iff] at hn
    subst hn
    simp [cliqueAt] at h0
  have hr : root < cs.length := by
    by_contra hcon
    unfold pickCliqueOrder getCliqueEliminationOrder at h
    rw [if_pos ⟨hn, by omega⟩] at h
    simp [Outcome.bind] at h
  obtain ⟨S', own, ht, r, rt, e, h1, h2, h3⟩ := pickCliqueOrder_spec hs vl root hr h0
  rw [h] at e
  simp at e
  subst e
  exact ⟨hr, h0, own, ht, r, rt, h1, h2, h3⟩

theorem before_reverse {α : Type} {l : List α} {a b : α} (h : Before l.reverse a b) :
    Before l b a := by
  obtain ⟨pre, suf, e, ha⟩ := h
  have : l = suf.reverse ++ b :: pre.reverse := by
    rw [← List.reverse_reverse l, e]; simp
  obtain ⟨p, q, rfl⟩ := List.append_of_mem ha
  refine ⟨suf.reverse ++ b :: q.reverse, p.reverse, ?_, by simp⟩
  rw [this]; simp

theorem before_trans {α : Type} {l : List α} (hl : l.Nodup) {a b c : α} (h : Before l a b)
    (h' : Before l b c) : Before l a c := by
  obtain ⟨p, q, rfl, ha⟩ := h
  obtain ⟨p', q', e, hb⟩ := h'
  refine ⟨p', q', e, ?_⟩
  obtain ⟨p1, p2, rfl⟩ := List.append_of_mem hb
  rw [List.append_assoc, List.cons_append] at e
  have : p = p1 := by
    have hn : (p1 ++ b :: (p2 ++ c :: q')).Nodup := e ▸ hl
    have h1 : b ∉ p := by
      intro hb
      rw [List.nodup_append] at hl
      exact hl.2.2 b hb b (by simp) rfl
    have h2 : b ∉ p1 := by
      intro hb
      rw [List.nodup_append] at hn
      exact hn.2.2 b hb b (by simp) rfl
    have h3 : b ∉ q := by
      intro hb
      have := (List.nodup_append.1 hl).2.1
      exact (List.nodup_cons.1 this).1 hb
    exact ((List.append_cons_inj_of_notMem h2 (by
      have := (List.nodup_append.1 hn).2.1
      exact (List.nodup_cons.1 this).1)).1 e.symm).1.symm
  subst this
  simp [ha]

end Verif.Clique
