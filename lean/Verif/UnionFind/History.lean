import Verif.UnionFind.Lemmas
import Mathlib.Data.List.Perm.Subperm

/-! Histories of public calls, and the invariants of the reachable objects. -/

namespace Verif.UnionFind
open Spec

theorem W_pos : 0 < W := by unfold W; decide

attribute [local irreducible] W

/-- `Reach s n E`: `s` is the object after some history of public calls (constructor, `resize`, `join`, `same`,
`find`, `size_of`, and `insert` of non-existing ids), `n` the number of sets asked for, `E` the pairs of existing sets
joined so far.  The order arguments of the calls are arbitrary. -/
inductive Reach : USet → Nat → List (Nat × Nat) → Prop
  | new (capacity : Nat) (compress : Bool) (h : capacity < W) : Reach (USet.new capacity compress) capacity []
  | resize {s n E} (size : Nat) (h : size < W) : Reach s n E → Reach (s.resize size).1 (max n size) E
  | insert {s n E} (x : Nat) (h : s.exists x = false) : Reach s n E → Reach (s.insert x).1 n E
  | join {s n E s' res} (o1 o2 : Bool) (a b : Nat) : Reach s n E → s.join o1 o2 a b = .ok (s', res) →
      Reach s' n (if a < n ∧ b < n then (a, b) :: E else E)
  | same {s n E s' res} (o : Bool) (a b : Nat) : Reach s n E → s.same o a b = .ok (s', res) → Reach s' n E
  | find {s n E s' res} (a : Nat) : Reach s n E → s.find a = .ok (s', res) → Reach s' n E
  | sizeOf {s n E s' res} (a : Nat) : Reach s n E → s.sizeOf a = .ok (s', res) → Reach s' n E

/-- Invariant of `union_set_t`. -/
def USInv (s : USet) (n : Nat) (E : List (Nat × Nat)) : Prop :=
  ∃ r ρ, CInv s.core n r ρ ∧ Kernel r E ∧ s.cnt.disjoint = nroots n r ∧ s.cnt.acorn = n

theorem insertFold (compress : Bool) (r ρ : Nat → Nat) (m : Nat) : ∀ (P R : List Nat) (k : Counters) (n : Nat),
    CInv ⟨P, R, compress⟩ n r ρ → n + m < W → k.disjoint = nroots n r → k.acorn = n →
    let s' := (List.range' n m).foldl (fun s ii => (USet.insert s ii).1)
      ⟨⟨P ++ List.replicate m 0, R ++ List.replicate m 0, compress⟩, k⟩
    CInv s'.core (n + m) r ρ ∧ s'.cnt.disjoint = nroots (n + m) r ∧ s'.cnt.acorn = n + m := by
  induction m with
  | zero => intro P R k n h _ h1 h2; simpa using ⟨h, h1, h2⟩
  | succ m ih =>
    intro P R k n h hW h1 h2
    have hP : P.length = n := h.lenP
    have hR : R.length = n := h.lenR
    obtain ⟨i1, hn⟩ := h.push (by omega)
    have hnr := nroots_le n r
    have hstep : (USet.insert ⟨⟨P ++ List.replicate (m + 1) 0, R ++ List.replicate (m + 1) 0, compress⟩, k⟩ n).1
        = ⟨⟨(P ++ [n]) ++ List.replicate m 0, (R ++ [1]) ++ List.replicate m 0, compress⟩,
            ⟨nroots (n + 1) r, n + 1⟩⟩ := by
      have e1 : (P ++ List.replicate (m + 1) 0).set n n = (P ++ [n]) ++ List.replicate m 0 := by
        rw [← hP, List.set_append_right _ _ (Nat.le_refl _)]; simp [List.replicate_succ]
      have e2 : (R ++ List.replicate (m + 1) 0).set n 1 = (R ++ [1]) ++ List.replicate m 0 := by
        rw [← hR, List.set_append_right _ _ (Nat.le_refl _)]; simp [List.replicate_succ]
      have e3 : (USet.mk ⟨P ++ List.replicate (m + 1) 0, R ++ List.replicate (m + 1) 0, compress⟩ k).exists n
          = true := by
        unfold USet.exists; simp; omega
      unfold USet.insert
      simp only [e3, if_true, e1, e2]
      rw [h1, h2, hn, Nat.mod_eq_of_lt (by omega), Nat.mod_eq_of_lt (by omega)]
    rw [List.range'_succ]
    simp only [List.foldl_cons]
    rw [hstep]
    have := ih (P ++ [n]) (R ++ [1]) ⟨nroots (n + 1) r, n + 1⟩ (n + 1) i1 (by omega) rfl rfl
    have e : n + 1 + m = n + (m + 1) := by omega
    rw [e] at this
    exact this

theorem USInv.resize {s n E} (h : USInv s n E) (size : Nat) (hW : size < W) :
    USInv (s.resize size).1 (max n size) E := by
  obtain ⟨r, ρ, hi, hk, hd, ha⟩ := h
  unfold USet.resize
  rw [hi.lenP]
  simp only
  split
  · next hlt =>
    have e : n + (size - n) = size := by omega
    have hm : max n size = size := by omega
    have := insertFold s.core.compress r ρ (size - n) s.core.parent s.core.rank s.cnt n hi (by omega) hd ha
    rw [e] at this
    rw [hm]
    exact ⟨r, ρ, this.1, hk, this.2.1, this.2.2⟩
  · next hlt =>
    have hm : max n size = n := by omega
    rw [hm]; exact ⟨r, ρ, hi, hk, hd, ha⟩

theorem USInv.exists_iff {s n E} (h : USInv s n E) (x : Nat) : s.exists x = decide (x < n) := by
  obtain ⟨r, ρ, hi, _⟩ := h
  unfold USet.exists; rw [hi.lenP]

theorem empty_inv (compress : Bool) : USInv ⟨⟨[], [], compress⟩, ⟨0, 0⟩⟩ 0 [] := by
  refine ⟨id, fun _ => 0, ?_, ?_, rfl, rfl⟩
  · exact ⟨rfl, rfl, W_pos, by simp, by simp, by simp, by simp, by simp, by simp⟩
  · intro x y
    constructor
    · intro e; cases e; exact .refl _
    · intro hc
      unfold Conn at hc
      induction hc with
      | rel x y h => simp at h
      | refl x => rfl
      | symm x y _ ih => exact ih.symm
      | trans x y z _ _ ih1 ih2 => exact ih1.trans ih2

theorem USInv.same {s n E} (h : USInv s n E) (o : Bool) (a b : Nat) :
    ∃ s' res, s.same o a b = .ok (s', res) ∧ USInv s' n E ∧ (res = true ↔ a < n ∧ b < n ∧ Conn E a b) := by
  have he := h.exists_iff
  obtain ⟨r, ρ, hi, hk, hd, ha⟩ := h
  unfold USet.same
  rw [he, he]
  by_cases hab : a < n ∧ b < n
  · obtain ⟨c', e, i, _⟩ := hi.sameSet o a b hab.1 hab.2
    simp only [hab.1, hab.2, decide_true, Bool.and_true, if_true, e, Res.bind_ok]
    refine ⟨_, _, rfl, ⟨r, ρ, i, hk, hd, ha⟩, ?_⟩
    simp [hk a b]
  · have : (decide (a < n) && decide (b < n)) = false := by
      rw [← Bool.decide_and]; simpa using hab
    rw [this]
    exact ⟨s, false, rfl, ⟨r, ρ, hi, hk, hd, ha⟩, by simp; intro h1 h2; exact absurd ⟨h1, h2⟩ hab⟩

theorem USInv.find {s n E} (h : USInv s n E) (a : Nat) :
    ∃ s' res, s.find a = .ok (s', res) ∧ USInv s' n E ∧
      (n ≤ a → res = notFound) ∧
      (a < n → res < n ∧ Conn E res a ∧
        ∃ r, Kernel r E ∧ res = r a ∧ s'.core.rank[res]? = some (csize n r res) ∧ r (r a) = r a ∧
          ∀ x, x < n → r x < n) := by
  have he := h.exists_iff a
  obtain ⟨r, ρ, hi, hk, hd, ha⟩ := h
  unfold USet.find
  rw [he]
  by_cases hn : a < n
  · obtain ⟨c', e, i, _⟩ := hi.find a hn
    have hr := i.root a hn
    simp only [hn, decide_true, Bool.not_true, Bool.false_eq_true, if_false, e, Res.bind_ok]
    refine ⟨_, _, rfl, ⟨r, ρ, i, hk, hd, ha⟩, fun h' => by omega, fun _ => ⟨hr.1, ?_, r, hk, rfl, ?_, hr.2.1,
      fun x hx => (i.root x hx).1⟩⟩
    · exact (hk _ _).1 hr.2.1
    · exact (i.size _ hr.1 hr.2.1).1
  · simp only [hn, decide_false, Bool.not_false, if_true]
    exact ⟨s, notFound, rfl, ⟨r, ρ, hi, hk, hd, ha⟩, fun _ => rfl, fun h' => absurd h' (by simp)⟩

theorem classSize_of {n : Nat} {r : Nat → Nat} {E : List (Nat × Nat)} (hk : Kernel r E) (a : Nat) :
    ClassSize (· < n) E a (csize n r (r a)) := by
  refine ⟨(List.range n).filter (fun y => decide (r y = r a)), List.nodup_range.filter _, fun x => ?_, ?_⟩
  · simp [hk x a]
  · unfold csize; rw [List.countP_eq_length_filter]

theorem classCount_of {n : Nat} {r : Nat → Nat} {E : List (Nat × Nat)} (hk : Kernel r E)
    (hr : ∀ x, x < n → r x < n ∧ r (r x) = r x) : ClassCount (· < n) E (nroots n r) := by
  refine ⟨(List.range n).filter (fun y => decide (r y = y)), ?_, fun x hx => ?_, fun x hx => ?_, ?_⟩
  · have h1 : ((List.range n).filter (fun y => decide (r y = y))).Nodup := List.nodup_range.filter _
    refine List.Pairwise.imp_of_mem ?_ h1
    intro x y hx hy hne hc
    simp at hx hy
    apply hne
    rw [← hx.2, ← hy.2]; exact (hk x y).2 hc
  · simpa using (List.mem_filter.1 hx).1
  · refine ⟨r x, ?_, ?_⟩
    · simp [(hr x hx).1, (hr x hx).2]
    · exact (hk _ _).1 (hr x hx).2.symm
  · unfold nroots; rw [List.countP_eq_length_filter]

theorem USInv.sizeOf {s n E} (h : USInv s n E) (a : Nat) :
    ∃ s' res, s.sizeOf a = .ok (s', res) ∧ USInv s' n E ∧
      (n ≤ a → res = 0) ∧ (a < n → ClassSize (· < n) E a res) := by
  have hnW : n < W := by obtain ⟨r, ρ, hi, _⟩ := h; exact hi.nW
  obtain ⟨s', res, e, i, h1, h2⟩ := h.find a
  unfold USet.sizeOf
  rw [e]
  simp only [Res.bind_ok]
  by_cases hn : a < n
  · obtain ⟨h3, h4, r, hk, hr, hrk, hrr, hlt⟩ := h2 hn
    have hne : res ≠ notFound := by unfold notFound; omega
    rw [if_pos hne]
    have e2 : rd s'.core.rank res = .ok (csize n r res) := by simp [rd, hrk]
    rw [e2]
    refine ⟨s', _, rfl, i, fun h' => by omega, fun _ => ?_⟩
    rw [hr]
    exact classSize_of hk a
  · rw [h1 (by omega), if_neg (by simp)]
    exact ⟨s', 0, rfl, i, fun _ => rfl, fun h' => absurd h' hn⟩

theorem USInv.join {s n E} (h : USInv s n E) (o1 o2 : Bool) (a b : Nat) :
    ∃ s' res, s.join o1 o2 a b = .ok (s', res) ∧ USInv s' n (if a < n ∧ b < n then (a, b) :: E else E) ∧
      (res = true ↔ a < n ∧ b < n ∧ ¬ Conn E a b) := by
  have he := h.exists_iff
  obtain ⟨r, ρ, hi, hk, hd, ha⟩ := h
  unfold USet.join
  rw [he, he]
  by_cases hab : a < n ∧ b < n
  · obtain ⟨c', k', r', ρ', e, i, hd', ha', _, hor⟩ := hi.joinElems o1 o2 s.cnt a b hab.1 hab.2 hd
      (by rw [ha]; exact hi.nW)
    simp only [hab.1, hab.2, decide_true, Bool.and_true, if_true, e, Res.bind_ok, and_self]
    refine ⟨_, _, rfl, ⟨r', ρ', i, ?_, hd', by rw [ha', ha]⟩, ?_⟩
    · rcases hor with ⟨h1, h2⟩ | ⟨h1, s', m, h2, h3⟩
      · rw [h2]; exact hk.same_edge h1
      · rw [h3, mergeR_eq]; exact hk.merge s' m h2
    · simp [hk a b]
  · have : (decide (a < n) && decide (b < n)) = false := by
      rw [← Bool.decide_and]; simpa using hab
    rw [this, if_neg hab]
    exact ⟨s, false, rfl, ⟨r, ρ, hi, hk, hd, ha⟩, by simp; intro h1 h2; exact absurd ⟨h1, h2⟩ hab⟩

theorem Reach.inv {s n E} (h : Reach s n E) : USInv s n E := by
  induction h with
  | new capacity compress h =>
    have := (empty_inv compress).resize capacity h
    rwa [Nat.zero_max] at this
  | resize size h _ ih => exact ih.resize size h
  | insert x h _ ih =>
    unfold USet.insert; rw [h]; exact ih
  | join o1 o2 a b _ e ih =>
    obtain ⟨s', res, e', i, _⟩ := ih.join o1 o2 a b
    rw [e'] at e
    injection e with e; injection e with e _
    rw [← e]; exact i
  | same o a b _ e ih =>
    obtain ⟨s', res, e', i, _⟩ := ih.same o a b
    rw [e'] at e
    injection e with e; injection e with e _
    rw [← e]; exact i
  | find a _ e ih =>
    obtain ⟨s', res, e', i, _⟩ := ih.find a
    rw [e'] at e
    injection e with e; injection e with e _
    rw [← e]; exact i
  | sizeOf a _ e ih =>
    obtain ⟨s', res, e', i, _⟩ := ih.sizeOf a
    rw [e'] at e
    injection e with e; injection e with e _
    rw [← e]; exact i

/-- `Reads s s'`: `s'` results from `s` by calls of `same`, `find`, `size_of` only. -/
inductive Reads : USet → USet → Prop
  | refl (s) : Reads s s
  | same {s t t' res} (o : Bool) (a b : Nat) : Reads s t → t.same o a b = .ok (t', res) → Reads s t'
  | find {s t t' res} (a : Nat) : Reads s t → t.find a = .ok (t', res) → Reads s t'
  | sizeOf {s t t' res} (a : Nat) : Reads s t → t.sizeOf a = .ok (t', res) → Reads s t'

theorem Reads.reach {s t n E} (hs : Reach s n E) (h : Reads s t) : Reach t n E := by
  induction h with
  | refl => exact hs
  | same o a b _ e ih => exact .same o a b ih e
  | find a _ e ih => exact .find a ih e
  | sizeOf a _ e ih => exact .sizeOf a ih e

theorem uset_find_core {s : USet} {n r ρ} (h : CInv s.core n r ρ) (a : Nat) :
    ∃ c', s.find a = .ok (⟨c', s.cnt⟩, if a < n then r a else notFound) ∧ CInv c' n r ρ := by
  unfold USet.find USet.exists
  rw [h.lenP]
  by_cases hn : a < n
  · obtain ⟨c', e, i, _⟩ := h.find a hn
    simp only [hn, decide_true, Bool.not_true, Bool.false_eq_true, if_false, if_true, e, Res.bind_ok]
    exact ⟨c', rfl, i⟩
  · simp only [hn, decide_false, Bool.not_false, if_true, if_false]
    exact ⟨s.core, rfl, h⟩

theorem Reads.core {s t n r ρ} (hs : CInv s.core n r ρ) (h : Reads s t) : CInv t.core n r ρ ∧ t.cnt = s.cnt := by
  induction h with
  | refl => exact ⟨hs, rfl⟩
  | @same t t' res o a b _ e ih =>
    obtain ⟨h1, h2⟩ := ih
    unfold USet.same USet.exists at e
    rw [h1.lenP] at e
    split at e
    · next hc =>
      simp only [Bool.and_eq_true, decide_eq_true_eq] at hc
      obtain ⟨c', e', i, _⟩ := h1.sameSet o a b hc.1 hc.2
      rw [e'] at e
      simp only [Res.bind_ok] at e
      injection e with e; injection e with e _
      rw [← e]; exact ⟨i, h2⟩
    · injection e with e; injection e with e _
      rw [← e]; exact ⟨h1, h2⟩
  | @find t t' res a _ e ih =>
    obtain ⟨h1, h2⟩ := ih
    obtain ⟨c', e', i⟩ := uset_find_core h1 a
    rw [e'] at e
    injection e with e; injection e with e _
    rw [← e]; exact ⟨i, h2⟩
  | @sizeOf t t' res a _ e ih =>
    obtain ⟨h1, h2⟩ := ih
    obtain ⟨c', e', i⟩ := uset_find_core h1 a
    unfold USet.sizeOf at e
    rw [e'] at e
    simp only [Res.bind_ok] at e
    generalize (if a < n then r a else notFound) = root at e
    split at e
    · cases hr : rd c'.rank root with
      | ok v => rw [hr] at e; simp only [Res.bind_ok] at e; injection e with e; injection e with e _; rw [← e]; exact ⟨i, h2⟩
      | exc v => rw [hr] at e; cases e
      | ub => rw [hr] at e; cases e
    · injection e with e; injection e with e _
      rw [← e]; exact ⟨i, h2⟩

theorem findFuel_mono (f : Nat) : ∀ (c : Core) (x : Nat) (y : Core × Nat), findFuel f c x = .ok y →
    findFuel (f + 1) c x = .ok y := by
  induction f with
  | zero => intro c x y h; cases h
  | succ f ih =>
    intro c x y h
    unfold UnionFind.findFuel at h ⊢
    cases h1 : rd c.parent x with
    | exc v => rw [h1] at h; cases h
    | ub => rw [h1] at h; cases h
    | ok p =>
      rw [h1] at h
      simp only [Res.bind_ok] at h ⊢
      cases h2 : rd c.rank x with
      | exc v => rw [h2] at h; cases h
      | ub => rw [h2] at h; cases h
      | ok k =>
        cases h3 : rd c.rank p with
        | exc v => rw [h2, h3] at h; cases h
        | ub => rw [h2, h3] at h; cases h
        | ok k' =>
          rw [h2, h3] at h
          simp only [Res.bind_ok] at h ⊢
          by_cases hp : x = p
          · rw [if_pos hp] at h ⊢; exact h
          · rw [if_neg hp] at h ⊢
            by_cases hc : c.compress = true
            · rw [if_pos hc] at h ⊢
              cases h4 : UnionFind.findFuel f c p with
              | exc v => rw [h4] at h; cases h
              | ub => rw [h4] at h; cases h
              | ok y' => rw [ih _ _ _ h4]; rw [h4] at h; exact h
            · rw [if_neg hc] at h ⊢
              exact ih _ _ _ h

theorem findFuel_le {f g : Nat} (hfg : f ≤ g) {c x y} (h : findFuel f c x = .ok y) : findFuel g c x = .ok y := by
  induction g with
  | zero => have : f = 0 := by omega
            subst this; exact h
  | succ g ih =>
    by_cases he : f = g + 1
    · subst he; exact h
    · exact findFuel_mono _ _ _ _ (ih (by omega))

/-- Adding one joined pair merges exactly the classes of its two ends. -/
theorem conn_cons {α : Type} (E : List (α × α)) (a b x y : α) :
    Conn ((a, b) :: E) x y ↔ Conn E x y ∨ (Conn E x a ∧ Conn E b y) ∨ (Conn E x b ∧ Conn E a y) := by
  constructor
  · intro h
    unfold Conn at h
    induction h with
    | rel x y h =>
      rcases List.mem_cons.1 h with h | h
      · injection h with h1 h2; subst h1; subst h2
        exact .inr (.inl ⟨.refl _, .refl _⟩)
      · exact .inl (.rel _ _ h)
    | refl x => exact .inl (.refl _)
    | symm x y _ ih =>
      rcases ih with h | ⟨h1, h2⟩ | ⟨h1, h2⟩
      · exact .inl (.symm _ _ h)
      · exact .inr (.inr ⟨.symm _ _ h2, .symm _ _ h1⟩)
      · exact .inr (.inl ⟨.symm _ _ h2, .symm _ _ h1⟩)
    | trans x y z _ _ ih1 ih2 =>
      rcases ih1 with h | ⟨h1, h2⟩ | ⟨h1, h2⟩ <;> rcases ih2 with k | ⟨k1, k2⟩ | ⟨k1, k2⟩
      · exact .inl (.trans _ _ _ h k)
      · exact .inr (.inl ⟨.trans _ _ _ h k1, k2⟩)
      · exact .inr (.inr ⟨.trans _ _ _ h k1, k2⟩)
      · exact .inr (.inl ⟨h1, .trans _ _ _ h2 k⟩)
      · exact .inr (.inl ⟨h1, k2⟩)
      · exact .inl (.trans _ _ _ h1 k2)
      · exact .inr (.inr ⟨h1, .trans _ _ _ h2 k⟩)
      · exact .inl (.trans _ _ _ h1 k2)
      · exact .inr (.inr ⟨h1, k2⟩)
  · have lift : ∀ {u v}, Conn E u v → Conn ((a, b) :: E) u v := by
      intro u v h
      unfold Conn at h
      induction h with
      | rel x y h => exact .rel _ _ (List.mem_cons_of_mem _ h)
      | refl x => exact .refl _
      | symm x y _ ih => exact .symm _ _ ih
      | trans x y z _ _ ih1 ih2 => exact .trans _ _ _ ih1 ih2
    have hab : Conn ((a, b) :: E) a b := .rel _ _ (List.mem_cons_self ..)
    rintro (h | ⟨h1, h2⟩ | ⟨h1, h2⟩)
    · exact lift h
    · exact .trans _ _ _ (lift h1) (.trans _ _ _ hab (lift h2))
    · exact .trans _ _ _ (lift h1) (.trans _ _ _ (.symm _ _ hab) (lift h2))

theorem ClassSize.unique {α : Type} {P : α → Prop} {E : List (α × α)} {a : α} {k k' : Nat}
    (h : ClassSize P E a k) (h' : ClassSize P E a k') : k = k' := by
  obtain ⟨l, n1, m1, rfl⟩ := h
  obtain ⟨l', n2, m2, rfl⟩ := h'
  apply Nat.le_antisymm
  · exact (List.subperm_of_subset n1 (fun x hx => (m2 x).2 ((m1 x).1 hx))).length_le
  · exact (List.subperm_of_subset n2 (fun x hx => (m1 x).2 ((m2 x).1 hx))).length_le

/-! ### `union_find_t` -/

set_option linter.unusedSectionVars false
variable {T : Type} [DecidableEq T]

/-- `UFReach s K E`: `s` after some history of element-keyed calls; `K` the inserted elements (last first), `E` the
pairs of present elements joined so far. -/
inductive UFReach : UF T → List T → List (T × T) → Prop
  | new (compress : Bool) : UFReach (UF.new compress) [] []
  | insert {s K E} (x : T) (h : K.length + 1 < W) : UFReach s K E →
      UFReach (s.insert x).1 (if x ∈ K then K else x :: K) E
  | join {s K E s' res} (o1 o2 : Bool) (a b : T) : UFReach s K E → s.joinSets o1 o2 a b = .ok (s', res) →
      UFReach s' K (if a ∈ K ∧ b ∈ K then (a, b) :: E else E)
  | same {s K E s' res} (o : Bool) (a b : T) : UFReach s K E → s.sameSetElems o a b = .ok (s', res) → UFReach s' K E
  | find {s K E s' res} (a : T) : UFReach s K E → s.findByElem a = .ok (s', res) → UFReach s' K E
  | sizeOf {s K E s' res} (a : T) : UFReach s K E → s.sizeOfElem a = .ok (s', res) → UFReach s' K E

/-- Label of an element: its root index, or itself when absent. -/
def label (ids : T → Option Nat) (r : Nat → Nat) (x : T) : Nat ⊕ T :=
  match ids x with
  | some i => .inl (r i)
  | none => .inr x

/-- Invariant of `union_find_t`. -/
structure UFInv (s : UF T) (K : List T) (E : List (T × T)) (r ρ : Nat → Nat) : Prop where
  core : CInv s.core K.length r ρ
  nodup : K.Nodup
  ids : ∀ x i, s.ids x = some i ↔ (i < K.length ∧ K.reverse[i]? = some x)
  kern : Kernel (label s.ids r) E
  dis : s.cnt.disjoint = nroots K.length r
  acorn : s.cnt.acorn = K.length

theorem UFInv.mem_iff {s : UF T} {K E r ρ} (h : UFInv s K E r ρ) (x : T) : s.exists x = decide (x ∈ K) := by
  unfold UF.exists
  cases hx : s.ids x with
  | some i =>
    have := (h.ids x i).1 hx
    have hm : x ∈ K.reverse := List.mem_of_getElem? this.2
    simp at hm; simp [hm]
  | none =>
    have : x ∉ K := by
      intro hm
      have hm' : x ∈ K.reverse := by simpa using hm
      obtain ⟨i, hi, he⟩ := List.getElem_of_mem hm'
      have := (h.ids x i).2 ⟨by simpa using hi, by rw [List.getElem?_eq_getElem hi, he]⟩
      rw [hx] at this; cases this
    simp [this]

theorem UFInv.id_of_mem {s : UF T} {K E r ρ} (h : UFInv s K E r ρ) {x : T} (hx : x ∈ K) :
    ∃ i, s.ids x = some i ∧ i < K.length ∧ s.idAt x = .ok i := by
  have := h.mem_iff x
  unfold UF.exists at this
  cases hi : s.ids x with
  | some i => exact ⟨i, rfl, ((h.ids x i).1 hi).1, by simp [UF.idAt, hi]⟩
  | none => rw [hi] at this; simp [hx] at this

theorem new_inv (compress : Bool) : UFInv (UF.new (T := T) compress) [] [] id (fun _ => 0) where
  core := by
    exact ⟨rfl, rfl, W_pos, by simp, by simp, by simp, by simp, by simp, by simp⟩
  nodup := List.nodup_nil
  ids := by intro x i; simp [UF.new]
  kern := by
    intro x y
    constructor
    · intro e; cases e; exact .refl _
    · intro hc
      unfold Conn at hc
      induction hc with
      | rel x y h => simp at h
      | refl x => rfl
      | symm x y _ ih => exact ih.symm
      | trans x y z _ _ ih1 ih2 => exact ih1.trans ih2
  dis := rfl
  acorn := rfl

theorem UFInv.insert {s : UF T} {K E r ρ} (h : UFInv s K E r ρ) (x : T) (hW : K.length + 1 < W) :
    (s.insert x).2 = decide (x ∉ K) ∧ UFInv (s.insert x).1 (if x ∈ K then K else x :: K) E r ρ := by
  unfold UF.insert
  rw [h.mem_iff x]
  by_cases hx : x ∈ K
  · simp only [hx, decide_true, if_true, not_true, decide_false]
    exact ⟨trivial, h⟩
  · simp only [hx, decide_false, Bool.false_eq_true, if_false, not_false_iff, decide_true]
    refine ⟨trivial, ?_⟩
    obtain ⟨i1, hn⟩ := h.core.push hW
    have hnr := nroots_le K.length r
    have hP := h.core.lenP
    constructor
    · simp only [List.length_cons]; rw [hP]; exact i1
    · exact List.nodup_cons.2 ⟨hx, h.nodup⟩
    · intro y i
      simp only [List.length_cons, List.reverse_cons]
      by_cases hy : y = x
      · subst hy
        rw [if_pos rfl, hP]
        constructor
        · intro e; injection e with e; subst e; simp
        · rintro ⟨h1, h2⟩
          by_cases hi : i < K.length
          · rw [List.getElem?_append_left (by simpa using hi)] at h2
            exact absurd (by simpa using List.mem_of_getElem? h2) hx
          · have : i = K.length := by omega
            rw [this]
      · rw [if_neg hy, h.ids y i]
        constructor
        · rintro ⟨h1, h2⟩
          exact ⟨by omega, by rw [List.getElem?_append_left (by simpa using h1)]; exact h2⟩
        · rintro ⟨h1, h2⟩
          by_cases hi : i < K.length
          · rw [List.getElem?_append_left (by simpa using hi)] at h2; exact ⟨hi, h2⟩
          · have : i = K.length := by omega
            subst this
            rw [List.getElem?_append_right (by simp)] at h2
            simp at h2; exact absurd h2.symm hy
    · intro y z
      rw [← h.kern y z]
      have hout := (h.core.out K.length (Nat.le_refl _)).1
      have hne : ∀ w, w ≠ x → label s.ids r w ≠ .inl K.length := by
        intro w hw
        unfold label
        cases hi : s.ids w with
        | some i =>
          have := (h.core.root i ((h.ids w i).1 hi).1).1
          simp; omega
        | none => simp
      have hxn : label s.ids r x = .inr x := by
        unfold label
        cases hi : s.ids x with
        | some i =>
          have := h.mem_iff x
          simp [UF.exists, hi, hx] at this
        | none => rfl
      have hne2 : ∀ w, w ≠ x → label s.ids r w ≠ .inr x := by
        intro w hw
        unfold label
        cases hi : s.ids w with
        | some i => simp
        | none => simpa using hw
      have hl : ∀ w, label (fun k => if k = x then some s.core.parent.length else s.ids k) r w
          = if w = x then .inl K.length else label s.ids r w := by
        intro w
        by_cases hw : w = x
        · subst hw; simp [label, hP, hout]
        · simp [label, hw]
      rw [hl, hl]
      by_cases hy : y = x <;> by_cases hz : z = x
      · simp [hy, hz]
      · subst hy
        rw [if_pos rfl, if_neg hz, hxn]
        exact ⟨fun e => absurd e.symm (hne z hz), fun e => absurd e.symm (hne2 z hz)⟩
      · subst hz
        rw [if_pos rfl, if_neg hy, hxn]
        exact ⟨fun e => absurd e (hne y hy), fun e => absurd e (hne2 y hy)⟩
      · rw [if_neg hy, if_neg hz]
    · simp only [List.length_cons]
      rw [hn, ← h.dis, Nat.mod_eq_of_lt (by rw [h.dis]; omega)]
    · simp only [List.length_cons]
      rw [h.acorn, Nat.mod_eq_of_lt hW]

theorem UFInv.label_of {s : UF T} {x : T} {i : Nat} {r : Nat → Nat} (h : s.ids x = some i) :
    label s.ids r x = .inl (r i) := by simp [label, h]

theorem UFInv.same {s : UF T} {K E r ρ} (h : UFInv s K E r ρ) (o : Bool) (a b : T) :
    ∃ s' res, s.sameSetElems o a b = .ok (s', res) ∧ UFInv s' K E r ρ ∧
      (res = true ↔ a ∈ K ∧ b ∈ K ∧ Conn E a b) := by
  unfold UF.sameSetElems
  rw [h.mem_iff, h.mem_iff]
  by_cases hab : a ∈ K ∧ b ∈ K
  · obtain ⟨ia, ha1, ha2, ha3⟩ := h.id_of_mem hab.1
    obtain ⟨ib, hb1, hb2, hb3⟩ := h.id_of_mem hab.2
    obtain ⟨c', e, i, _⟩ := h.core.sameSet o ia ib ha2 hb2
    simp only [hab.1, hab.2, decide_true, Bool.and_true, if_true, ha3, hb3, e, Res.bind_ok]
    refine ⟨_, _, rfl, ⟨i, h.nodup, h.ids, h.kern, h.dis, h.acorn⟩, ?_⟩
    rw [← h.kern a b, UFInv.label_of ha1, UFInv.label_of hb1]
    simp
  · have : (decide (a ∈ K) && decide (b ∈ K)) = false := by
      rw [← Bool.decide_and]; simpa using hab
    rw [this]
    exact ⟨s, false, rfl, h, by simp; intro h1 h2; exact absurd ⟨h1, h2⟩ hab⟩

theorem UFInv.find {s : UF T} {K E r ρ} (h : UFInv s K E r ρ) (a : T) :
    ∃ s' res, s.findByElem a = .ok (s', res) ∧ UFInv s' K E r ρ ∧
      (a ∉ K → res = notFound) ∧
      (a ∈ K → res < K.length ∧ s'.core.rank[res]? = some (csize K.length r res) ∧ label s.ids r a = .inl res) := by
  unfold UF.findByElem
  rw [h.mem_iff]
  by_cases hab : a ∈ K
  · obtain ⟨ia, ha1, ha2, ha3⟩ := h.id_of_mem hab
    obtain ⟨c', e, i, _⟩ := h.core.find ia ha2
    have hr := i.root ia ha2
    simp only [hab, decide_true, Bool.not_true, Bool.false_eq_true, if_false, ha3, e, Res.bind_ok]
    refine ⟨_, _, rfl, ⟨i, h.nodup, h.ids, h.kern, h.dis, h.acorn⟩, fun h' => absurd trivial h', fun _ => ⟨hr.1, ?_, ?_⟩⟩
    · exact (i.size _ hr.1 hr.2.1).1
    · exact UFInv.label_of ha1
  · simp only [hab, decide_false, Bool.not_false, if_true]
    exact ⟨s, notFound, rfl, h, fun _ => rfl, fun h' => absurd h' (by simp)⟩

theorem UFInv.find_ids {s s' : UF T} {a : T} {res : Nat} (h : s.findByElem a = .ok (s', res)) :
    s'.ids = s.ids := by
  unfold UF.findByElem at h
  split at h
  · injection h with h; injection h with h _; rw [← h]
  · cases h1 : s.idAt a with
    | exc v => rw [h1] at h; cases h
    | ub => rw [h1] at h; cases h
    | ok ia =>
      rw [h1] at h
      simp only [Res.bind_ok] at h
      cases h2 : UnionFind.find s.core ia with
      | exc v => rw [h2] at h; cases h
      | ub => rw [h2] at h; cases h
      | ok y => rw [h2] at h; simp only [Res.bind_ok] at h; injection h with h; injection h with h _; rw [← h]

theorem countP_map_range {K : List T} (f : T → Nat) (r : Nat → Nat) (p : Nat → Nat → Bool)
    (hf : ∀ i, i < K.length → ∃ x, K.reverse[i]? = some x ∧ f x = i) :
    (List.range K.length).countP (fun i => p i (r i)) = K.countP (fun x => p (f x) (r (f x))) := by
  have e : K.reverse.map f = List.range K.length := by
    apply List.ext_getElem?
    intro i
    by_cases hi : i < K.length
    · obtain ⟨x, h1, h2⟩ := hf i hi
      simp only [List.getElem?_map, h1, Option.map_some, h2]
      simp [hi]
    · rw [List.getElem?_eq_none (by simpa using hi), List.getElem?_eq_none (by simpa using hi)]
  rw [← e, List.countP_map, List.countP_reverse]
  rfl

theorem UFInv.classSize {s : UF T} {K E r ρ} (h : UFInv s K E r ρ) (a : T) (ρa : Nat)
    (ha : label s.ids r a = .inl ρa) : ClassSize (· ∈ K) E a (csize K.length r ρa) := by
  refine ⟨K.filter (fun x => decide (label s.ids r x = .inl ρa)), h.nodup.filter _, fun x => ?_, ?_⟩
  · simp only [List.mem_filter, decide_eq_true_eq]
    rw [← h.kern x a, ha]
  · rw [← List.countP_eq_length_filter]
    unfold csize
    have hf : ∀ i, i < K.length → ∃ x, K.reverse[i]? = some x ∧ (s.ids x).getD 0 = i := by
      intro i hi
      refine ⟨K.reverse[i]'(by simpa using hi), by rw [List.getElem?_eq_getElem], ?_⟩
      have := (h.ids (K.reverse[i]'(by simpa using hi)) i).2 ⟨hi, by rw [List.getElem?_eq_getElem]⟩
      rw [this]; rfl
    rw [countP_map_range (fun x => (s.ids x).getD 0) r (fun _ ri => decide (ri = ρa)) hf]
    apply List.countP_congr
    intro x hx
    obtain ⟨i, h1, _⟩ := h.id_of_mem hx
    simp [label, h1]

theorem UFInv.classCount {s : UF T} {K E r ρ} (h : UFInv s K E r ρ) : ClassCount (· ∈ K) E s.cnt.disjoint := by
  rw [h.dis]
  refine ⟨K.filter (fun x => decide (r ((s.ids x).getD 0) = (s.ids x).getD 0)), ?_, fun x hx => ?_, fun x hx => ?_, ?_⟩
  · have h1 := h.nodup.filter (fun x => decide (r ((s.ids x).getD 0) = (s.ids x).getD 0))
    refine List.Pairwise.imp_of_mem ?_ h1
    intro x y hx hy hne hc
    simp only [List.mem_filter, decide_eq_true_eq] at hx hy
    obtain ⟨i, hi1, _⟩ := h.id_of_mem hx.1
    obtain ⟨j, hj1, _⟩ := h.id_of_mem hy.1
    have := (h.kern x y).2 hc
    rw [UFInv.label_of hi1, UFInv.label_of hj1] at this
    injection this with this
    simp only [hi1, hj1, Option.getD_some] at hx hy
    rw [hx.2, hy.2] at this
    subst this
    have h3 := ((h.ids x i).1 hi1).2
    have h4 := ((h.ids y i).1 hj1).2
    rw [h3] at h4; injection h4 with h4; exact hne h4
  · exact (List.mem_filter.1 hx).1
  · obtain ⟨i, hi1, hi2, _⟩ := h.id_of_mem hx
    obtain ⟨hr1, hr2, _⟩ := h.core.root i hi2
    have hlen : r i < K.reverse.length := by simpa using hr1
    refine ⟨K.reverse[r i], ?_, ?_⟩
    · have hid := (h.ids (K.reverse[r i]) (r i)).2 ⟨hr1, List.getElem?_eq_getElem hlen⟩
      simp only [List.mem_filter, decide_eq_true_eq]
      refine ⟨by simpa using List.getElem_mem hlen, ?_⟩
      rw [hid]; exact hr2
    · have hid := (h.ids (K.reverse[r i]) (r i)).2 ⟨hr1, List.getElem?_eq_getElem hlen⟩
      rw [← h.kern, UFInv.label_of hi1, UFInv.label_of hid, hr2]
  · rw [← List.countP_eq_length_filter]
    unfold nroots
    have hf : ∀ i, i < K.length → ∃ x, K.reverse[i]? = some x ∧ (s.ids x).getD 0 = i := by
      intro i hi
      refine ⟨K.reverse[i]'(by simpa using hi), by rw [List.getElem?_eq_getElem], ?_⟩
      have := (h.ids (K.reverse[i]'(by simpa using hi)) i).2 ⟨hi, by rw [List.getElem?_eq_getElem]⟩
      rw [this]; rfl
    exact (countP_map_range (fun x => (s.ids x).getD 0) r (fun i ri => decide (ri = i)) hf).symm

theorem UFInv.sizeOf {s : UF T} {K E r ρ} (h : UFInv s K E r ρ) (a : T) :
    ∃ s' res, s.sizeOfElem a = .ok (s', res) ∧ UFInv s' K E r ρ ∧
      (a ∉ K → res = 0) ∧ (a ∈ K → ClassSize (· ∈ K) E a res) := by
  have hnW := h.core.nW
  obtain ⟨s', res, e, i, h1, h2⟩ := h.find a
  unfold UF.sizeOfElem
  rw [e]
  simp only [Res.bind_ok]
  by_cases hn : a ∈ K
  · obtain ⟨h3, h4, h5⟩ := h2 hn
    have hne : res ≠ notFound := by unfold notFound; omega
    rw [if_pos hne]
    have e2 : rd s'.core.rank res = .ok (csize K.length r res) := by simp [rd, h4]
    rw [e2]
    exact ⟨s', _, rfl, i, fun h' => absurd hn h', fun _ => h.classSize a res h5⟩
  · rw [h1 hn, if_neg (by simp)]
    exact ⟨s', 0, rfl, i, fun _ => rfl, fun h' => absurd h' hn⟩

theorem UFInv.join {s : UF T} {K E r ρ} (h : UFInv s K E r ρ) (o1 o2 : Bool) (a b : T) :
    ∃ s' res r' ρ', s.joinSets o1 o2 a b = .ok (s', res) ∧
      UFInv s' K (if a ∈ K ∧ b ∈ K then (a, b) :: E else E) r' ρ' ∧
      (res = true ↔ a ∈ K ∧ b ∈ K ∧ ¬ Conn E a b) := by
  unfold UF.joinSets
  rw [h.mem_iff, h.mem_iff]
  by_cases hab : a ∈ K ∧ b ∈ K
  · obtain ⟨ia, ha1, ha2, ha3⟩ := h.id_of_mem hab.1
    obtain ⟨ib, hb1, hb2, hb3⟩ := h.id_of_mem hab.2
    obtain ⟨c', k', r', ρ', e, i, hd', ha', _, hor⟩ := h.core.joinElems o1 o2 s.cnt ia ib ha2 hb2 h.dis
      (by rw [h.acorn]; exact h.core.nW)
    simp only [hab.1, hab.2, decide_true, Bool.and_true, if_true, ha3, hb3, e, Res.bind_ok, and_self]
    refine ⟨_, _, r', ρ', rfl, ⟨i, h.nodup, h.ids, ?_, hd', by rw [ha', h.acorn]⟩, ?_⟩
    · rcases hor with ⟨h1, h2⟩ | ⟨h1, s', m, h2, h3⟩
      · rw [h2]
        apply h.kern.same_edge
        rw [UFInv.label_of ha1, UFInv.label_of hb1, h1]
      · have hm := h.kern.merge (a := a) (b := b) (Sum.inl s') (Sum.inl m) (by
          rw [UFInv.label_of ha1, UFInv.label_of hb1]
          rcases h2 with ⟨h4, h5⟩ | ⟨h4, h5⟩
          · left; rw [h4, h5]; exact ⟨rfl, rfl⟩
          · right; rw [h4, h5]; exact ⟨rfl, rfl⟩)
        have e2 : label s.ids r' = fun x => if label s.ids r x = Sum.inl s' then Sum.inl m else label s.ids r x := by
          funext x
          rw [h3]
          unfold label mergeR
          cases s.ids x with
          | some i => by_cases hh : r i = s' <;> simp [hh]
          | none => simp
        rw [e2]; exact hm
    · rw [← h.kern a b, UFInv.label_of ha1, UFInv.label_of hb1]; simp
  · have : (decide (a ∈ K) && decide (b ∈ K)) = false := by
      rw [← Bool.decide_and]; simpa using hab
    rw [this, if_neg hab]
    exact ⟨s, false, r, ρ, rfl, h, by simp; intro h1 h2; exact absurd ⟨h1, h2⟩ hab⟩

theorem UFReach.inv {s : UF T} {K E} (h : UFReach s K E) : ∃ r ρ, UFInv s K E r ρ := by
  induction h with
  | new compress => exact ⟨_, _, new_inv compress⟩
  | insert x hW _ ih =>
    obtain ⟨r, ρ, i⟩ := ih
    exact ⟨r, ρ, (i.insert x hW).2⟩
  | join o1 o2 a b _ e ih =>
    obtain ⟨r, ρ, i⟩ := ih
    obtain ⟨s', res, r', ρ', e', i', _⟩ := i.join o1 o2 a b
    rw [e'] at e
    injection e with e; injection e with e _
    rw [← e]; exact ⟨r', ρ', i'⟩
  | same o a b _ e ih =>
    obtain ⟨r, ρ, i⟩ := ih
    obtain ⟨s', res, e', i', _⟩ := i.same o a b
    rw [e'] at e
    injection e with e; injection e with e _
    rw [← e]; exact ⟨r, ρ, i'⟩
  | find a _ e ih =>
    obtain ⟨r, ρ, i⟩ := ih
    obtain ⟨s', res, e', i', _⟩ := i.find a
    rw [e'] at e
    injection e with e; injection e with e _
    rw [← e]; exact ⟨r, ρ, i'⟩
  | sizeOf a _ e ih =>
    obtain ⟨r, ρ, i⟩ := ih
    obtain ⟨s', res, e', i', _⟩ := i.sizeOf a
    rw [e'] at e
    injection e with e; injection e with e _
    rw [← e]; exact ⟨r, ρ, i'⟩

end Verif.UnionFind
