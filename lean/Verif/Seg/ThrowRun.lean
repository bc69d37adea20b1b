import Verif.Seg.ThrowRep

/-! Calls on trees whose transform throws: relation to the calls without exceptions, interval structure, histories. -/

namespace Verif.Seg
open Spec Verif.Heap TM
set_option linter.unusedSectionVars false
variable {T V U : Type} {X : Transform T V U} {P : U → Prop} {act : U → Nat → Nat → V → V}

/-! ### A call that completes is the call without exceptions -/

theorem bind_some {α β : Type} {m : TM V U α} {f : α → TM V U β} {k h k' v h'}
    (H : (m >>= f) k h = .ok (some (k', v), h')) :
    ∃ k1 a h1, m k h = .ok (some (k1, a), h1) ∧ f a k1 h1 = .ok (some (k', v), h') := by
  replace H : TM.bind m f k h = _ := H
  unfold TM.bind at H
  generalize hm : m k h = q at H
  match q, H with
  | .ok (some (k1, a), h1), H => exact ⟨k1, a, h1, rfl, H⟩

theorem tick_some {k h k' v h'} (H : (tick : TM V U Unit) k h = .ok (some (k', v), h')) : h = h' := by
  cases k with
  | zero => cases H
  | succ k => cases H; rfl

theorem cell_some {i k h k' v h'} (H : (cell i : TM V U (RNode V U)) k h = .ok (some (k', v), h')) :
    rd h i = .ok v ∧ h = h' := by
  unfold cell at H
  obtain ⟨n, e, H⟩ := Res.bind_eq_ok.1 H
  cases H
  exact ⟨e, rfl⟩

theorem store_some {i n k h k' v h'} (H : (store i n : TM V U Unit) k h = .ok (some (k', v), h')) : put h i n = h' := by
  cases H; rfl

theorem pure_some {α : Type} {a : α} {k h k' v h'} (H : (pure a : TM V U α) k h = .ok (some (k', v), h')) :
    a = v ∧ h = h' := by
  cases H; exact ⟨rfl, rfl⟩

theorem pushDown_some {i n l r k h k' v h'} (H : pushDown X i n l r k h = .ok (some (k', v), h')) :
    (if X.has n.lazy = true then
      put (put (put h i (X.propagate n l r).1) (leftOf n.index) (X.propagate n l r).2.1) (rightOf n.index)
        (X.propagate n l r).2.2 else h) = h' := by
  unfold pushDown at H
  by_cases c : X.has n.lazy = true
  · rw [if_pos c] at H ⊢
    obtain ⟨k1, a1, h1, H1, H⟩ := bind_some H
    obtain ⟨k2, a2, h2, H2, H⟩ := bind_some H
    obtain ⟨k3, a3, h3, H3, H⟩ := bind_some H
    have e1 := tick_some H1; subst e1
    have e2 := store_some H2; subst e2
    have e3 := store_some H3; subst e3
    exact store_some H
  · rw [if_neg c] at H ⊢
    exact (pure_some H).2

theorem walkT_some (X : Transform T V U) (stp : RNode V U → Bool) (fin : Option (RNode V U → RNode V U)) (fuel : Nat) :
    ∀ {s e i k h k' v h'}, walkT X stp fin fuel s e i k h = .ok (some (k', v), h') →
    walk X stp (finOf fin) fuel s e i h = .ok (v, h') := by
  induction fuel with
  | zero => intro s e i k h k' v h' H; cases H
  | succ fuel ih =>
    intro s e i k h k' v h' H
    unfold walkT at H
    obtain ⟨k1, n, h1, H1, H⟩ := bind_some H
    obtain ⟨hn, rfl⟩ := cell_some H1
    unfold walk
    rw [hn]
    simp only [Res.bind_ok]
    have hn' : h[i]? = some n := by
      unfold rd at hn; split at hn
      · next x hx => injection hn with hn; rw [hx, hn]
      · cases hn
    by_cases c1 : (n.start = s ∧ e = n.stop) ∧ (n.leaf = true ∨ stp n = true)
    · rw [if_pos c1] at H ⊢
      cases fin with
      | none =>
        obtain ⟨k2, a2, h2, H2, H⟩ := bind_some H
        have e2 := tick_some H2; subst e2
        obtain ⟨rfl, rfl⟩ := pure_some H
        simp only [finOf, put_self hn']
      | some f =>
        obtain ⟨k2, a2, h2, H2, H⟩ := bind_some H
        have e2 := tick_some H2; subst e2
        obtain ⟨k3, a3, h3, H3, H⟩ := bind_some H
        have e3 := store_some H3; subst e3
        obtain ⟨k4, a4, h4, H4, H⟩ := bind_some H
        have e4 := tick_some H4; subst e4
        obtain ⟨rfl, rfl⟩ := pure_some H
        rfl
    · rw [if_neg c1] at H ⊢
      by_cases c2 : n.leaf = false
      · rw [if_pos c2] at H ⊢
        obtain ⟨k2, l, h2, H2, H⟩ := bind_some H
        obtain ⟨hl, rfl⟩ := cell_some H2
        obtain ⟨k3, r, h3, H3, H⟩ := bind_some H
        obtain ⟨hr, rfl⟩ := cell_some H3
        obtain ⟨k4, a4, hh, H4, H⟩ := bind_some H
        have e4 := pushDown_some H4
        obtain ⟨k5, w, h5, H5, H⟩ := bind_some H
        obtain ⟨k6, n6, h6, H6, H⟩ := bind_some H
        obtain ⟨hn6, rfl⟩ := cell_some H6
        obtain ⟨k7, l7, h7, H7, H⟩ := bind_some H
        obtain ⟨hl7, rfl⟩ := cell_some H7
        obtain ⟨k8, r8, h8, H8, H⟩ := bind_some H
        obtain ⟨hr8, rfl⟩ := cell_some H8
        obtain ⟨k9, a9, h9, H9, H⟩ := bind_some H
        have e9 := tick_some H9; subst e9
        obtain ⟨k10, a10, h10, H10, H⟩ := bind_some H
        have e10 := store_some H10; subst e10
        obtain ⟨rfl, rfl⟩ := pure_some H
        rw [hl, hr]
        simp only [Res.bind_ok]
        rw [e4]
        by_cases d1 : s ≤ n.center ∧ e > n.center
        · simp only [if_pos d1] at H5 ⊢
          obtain ⟨j1, b1, g1, J1, H5⟩ := bind_some H5
          have f1 := tick_some J1; subst f1
          obtain ⟨j2, b2, g2, J2, H5⟩ := bind_some H5
          obtain ⟨j3, b3, g3, J3, H5⟩ := bind_some H5
          obtain ⟨j4, b4, g4, J4, H5⟩ := bind_some H5
          have f4 := tick_some J4; subst f4
          obtain ⟨rfl, rfl⟩ := pure_some H5
          simp only [ih J2, ih J3, hn6, hl7, hr8, Res.bind_ok]
        · rw [if_neg d1] at H5 ⊢
          by_cases d2 : s ≤ n.center
          · rw [if_pos d2] at H5 ⊢
            simp only [ih H5, hn6, hl7, hr8, Res.bind_ok]
          · rw [if_neg d2] at H5 ⊢
            by_cases d3 : e > n.center
            · rw [if_pos d3] at H5 ⊢
              simp only [ih H5, hn6, hl7, hr8, Res.bind_ok]
            · rw [if_neg d3] at H5; cases H5
      · rw [if_neg c2] at H; cases H

theorem buildNodeT_some (X : Transform T V U) (input : List T) (fuel : Nat) :
    ∀ {i k h k' v h'}, buildNodeT X input fuel i k h = .ok (some (k', v), h') → buildNode X input fuel i h = .ok h' := by
  induction fuel with
  | zero => intro i k h k' v h' H; cases H
  | succ fuel ih =>
    intro i k h k' v h' H
    unfold buildNodeT at H
    obtain ⟨k1, n, h1, H1, H⟩ := bind_some H
    obtain ⟨hn, rfl⟩ := cell_some H1
    unfold buildNode
    rw [hn]
    simp only [Res.bind_ok]
    by_cases c : n.stop > n.start
    · rw [if_pos c] at H ⊢
      obtain ⟨k2, l, h2, H2, H⟩ := bind_some H
      obtain ⟨hl, rfl⟩ := cell_some H2
      obtain ⟨k3, r, h3, H3, H⟩ := bind_some H
      obtain ⟨hr, rfl⟩ := cell_some H3
      obtain ⟨k4, a4, h4, H4, H⟩ := bind_some H
      have e4 := store_some H4; subst e4
      obtain ⟨k5, a5, h5, H5, H⟩ := bind_some H
      have e5 := store_some H5; subst e5
      obtain ⟨k6, a6, h6, H6, H⟩ := bind_some H
      have e6 := tick_some H6; subst e6
      obtain ⟨k7, a7, h7, H7, H⟩ := bind_some H
      have e7 := store_some H7; subst e7
      obtain ⟨k8, a8, h8, H8, H⟩ := bind_some H
      have e8 := tick_some H8; subst e8
      obtain ⟨k9, a9, h9, H9, H⟩ := bind_some H
      have e9 := store_some H9; subst e9
      obtain ⟨k10, a10, h10, H10, H⟩ := bind_some H
      obtain ⟨k11, a11, h11, H11, H⟩ := bind_some H
      obtain ⟨k12, n12, h12, H12, H⟩ := bind_some H
      obtain ⟨hn12, rfl⟩ := cell_some H12
      obtain ⟨k13, l13, h13, H13, H⟩ := bind_some H
      obtain ⟨hl13, rfl⟩ := cell_some H13
      obtain ⟨k14, r14, h14, H14, H⟩ := bind_some H
      obtain ⟨hr14, rfl⟩ := cell_some H14
      obtain ⟨k15, a15, h15, H15, H⟩ := bind_some H
      have e15 := tick_some H15; subst e15
      have e16 := store_some H
      rw [hl, hr]
      simp only [Res.bind_ok]
      have hne : leftOf n.index ≠ rightOf n.index := by rw [leftOf_eq, rightOf_eq]; omega
      have pp : ∀ (g : List (RNode V U)) (i j : Nat) (x x' y y' : RNode V U), i ≠ j →
          put (put (put (put g i x) j y) i x') j y' = put (put g i x') j y' := by
        intro g i j x x' y y' hij
        unfold put
        apply List.ext_getElem?
        intro m
        simp only [List.getElem?_set, List.length_set]
        by_cases m1 : j = m
        · simp [m1]
        · by_cases m2 : i = m
          · simp [m1, m2]
          · simp [m1, m2]
      have i1 := ih H10
      rw [pp _ _ _ _ _ _ _ hne] at i1
      simp only [i1, ih H11, hn12, hl13, hr14, Res.bind_ok, e16]
    · rw [if_neg c] at H ⊢
      obtain ⟨k2, x, h2, H2, H⟩ := bind_some H
      obtain ⟨y, hy, H2⟩ := Res.bind_eq_ok.1 H2
      cases H2
      obtain ⟨k3, a3, h3, H3, H⟩ := bind_some H
      have e3 := tick_some H3; subst e3
      rw [hy]
      simp only [Res.bind_ok, store_some H]

/-! ### With enough operations nothing throws -/

/-- `m` performs at most `c` operations. -/
def AtMost {α : Type} (c : Nat) (m : TM V U α) : Prop :=
  ∀ k h r h', m (c + k) h = .ok (r, h') → ∃ k' a, r = some (k', a) ∧ k ≤ k'

theorem atMost_bind {α β : Type} {m : TM V U α} {f : α → TM V U β} {c1 c2 : Nat} (a1 : AtMost c1 m)
    (a2 : ∀ a, AtMost c2 (f a)) : AtMost (c1 + c2) (m >>= f) := by
  intro k h r h' H
  replace H : TM.bind m f (c1 + c2 + k) h = _ := H
  unfold TM.bind at H
  generalize hm : m (c1 + c2 + k) h = q at H
  match q, H with
  | .ok (some (k1, a), h1), H =>
    obtain ⟨k2, a2', e, l⟩ := a1 (c2 + k) h _ _ (by rw [← Nat.add_assoc]; exact hm)
    injection e with e
    obtain ⟨rfl, rfl⟩ := Prod.mk.inj e
    obtain ⟨d, rfl⟩ := Nat.exists_eq_add_of_le l
    rw [Nat.add_assoc] at H
    obtain ⟨k3, a3, e3, l3⟩ := a2 a (k + d) _ _ _ H
    exact ⟨k3, a3, e3, by omega⟩
  | .ok (none, h1), H =>
    obtain ⟨k2, a2', e, l⟩ := a1 (c2 + k) h _ _ (by rw [← Nat.add_assoc]; exact hm)
    cases e

theorem AtMost.le {α : Type} {m : TM V U α} {c c' : Nat} (a : AtMost c m) (h : c ≤ c') : AtMost c' m := by
  intro k g r h' H
  obtain ⟨d, rfl⟩ := Nat.exists_eq_add_of_le h
  rw [Nat.add_assoc] at H
  obtain ⟨k1, a1, e, l⟩ := a _ _ _ _ H
  exact ⟨k1, a1, e, by omega⟩

theorem atMost_pure {α : Type} (a : α) : AtMost 0 (pure a : TM V U α) := by
  intro k h r h' H; cases H; exact ⟨_, _, rfl, by omega⟩

theorem atMost_tick : AtMost 1 (tick : TM V U Unit) := by
  intro k h r h' H; rw [Nat.add_comm] at H; cases H; exact ⟨_, _, rfl, by omega⟩

theorem atMost_cell (i : Nat) : AtMost 0 (cell i : TM V U (RNode V U)) := by
  intro k h r h' H
  unfold cell at H
  obtain ⟨n, -, H⟩ := Res.bind_eq_ok.1 H
  cases H; exact ⟨_, _, rfl, by omega⟩

theorem atMost_store (i : Nat) (n : RNode V U) : AtMost 0 (store i n : TM V U Unit) := by
  intro k h r h' H; cases H; exact ⟨_, _, rfl, by omega⟩

theorem atMost_undef {α : Type} (c : Nat) : AtMost c (undef : TM V U α) := by
  intro k h r h' H; cases H

theorem atMost_pushDown (i : Nat) (n l r : RNode V U) : AtMost 1 (pushDown X i n l r) := by
  unfold pushDown
  split
  · exact atMost_bind atMost_tick fun _ => atMost_bind (atMost_store _ _) fun _ => atMost_bind (atMost_store _ _) fun _ =>
      atMost_store _ _
  · exact (atMost_pure ()).le (by omega)

theorem atMost_walkT (X : Transform T V U) (stp : RNode V U → Bool) (fin : Option (RNode V U → RNode V U)) (fuel : Nat) :
    ∃ c, ∀ s e i, AtMost c (walkT X stp fin fuel s e i) := by
  induction fuel with
  | zero => exact ⟨0, fun s e i => atMost_undef 0⟩
  | succ fuel ih =>
    obtain ⟨c, ih⟩ := ih
    refine ⟨0 + (2 + (0 + (0 + (1 + ((1 + (c + (c + (1 + 0)))) + (0 + (0 + (0 + (1 + (0 + 0)))))))))), fun s e i => ?_⟩
    unfold walkT
    refine atMost_bind (atMost_cell _) fun n => ?_
    split
    · cases fin with
      | none => exact (atMost_bind atMost_tick fun _ => atMost_pure _).le (by omega)
      | some f =>
        exact (atMost_bind atMost_tick fun _ => atMost_bind (atMost_store _ _) fun _ => atMost_bind atMost_tick fun _ =>
          atMost_pure _).le (by omega)
    · split
      · refine AtMost.le ?_ (Nat.le_add_left _ 2)
        refine atMost_bind (atMost_cell _) fun l => atMost_bind (atMost_cell _) fun r =>
          atMost_bind (atMost_pushDown _ _ _ _) fun _ => atMost_bind ?_ fun v =>
          atMost_bind (atMost_cell _) fun _ => atMost_bind (atMost_cell _) fun _ => atMost_bind (atMost_cell _) fun _ =>
          atMost_bind atMost_tick fun _ => atMost_bind (atMost_store _ _) fun _ => atMost_pure _
        split
        · exact atMost_bind atMost_tick fun _ => atMost_bind (ih _ _ _) fun _ => atMost_bind (ih _ _ _) fun _ =>
            atMost_bind atMost_tick fun _ => atMost_pure _
        · split
          · exact (ih _ _ _).le (by omega)
          · split
            · exact (ih _ _ _).le (by omega)
            · exact atMost_undef _
      · exact atMost_undef _

/-- Where an interruptible walk never meets UB, the walk without exceptions completes, and what holds of every completed
interruptible walk holds of it. -/
theorem walk_of_post {stp : RNode V U → Bool} {fin : Option (RNode V U → RNode V U)} {fuel s e i : Nat}
    {h : List (RNode V U)} {Q : Option (Nat × V) → List (RNode V U) → Prop}
    (H : ∀ k, Post (walkT X stp fin fuel s e i) k h Q) :
    ∃ v h' k, walk X stp (finOf fin) fuel s e i h = .ok (v, h') ∧ Q (some (k, v)) h' := by
  obtain ⟨c, hc⟩ := atMost_walkT X stp fin fuel
  obtain ⟨r, h', e1, q⟩ := H (c + 0)
  obtain ⟨k', v, rfl, -⟩ := hc s e i 0 h r h' e1
  exact ⟨v, h', k', walkT_some X stp fin fuel e1, q⟩

/-! ### Interval structure -/

theorem pushDown_shape (K : Keeps X) {h : List (RNode V U)} {i k : Nat} {n l r : RNode V U} (hn : h[i]? = some n)
    (hi : n.index = i) (hl' : h[2 * i + 1]? = some l) (hr' : h[2 * i + 2]? = some r) :
    Post (pushDown X i n l r) k h fun _ h1 => SameBoxes h h1 := by
  unfold pushDown
  rw [hi, leftOf_eq, rightOf_eq]
  split
  · refine post_bind (post_tick (SameBoxes.refl h) fun k' => post_bind (post_store (post_bind (post_store (post_store ?_)))))
    obtain ⟨k1, k2, k3⟩ := K.propagate n l r
    have g1 := SameBoxes.put hn k1
    have q1 : (put h i (X.propagate n l r).1)[2 * i + 1]? = some l := by
      simp only [put, List.getElem?_set, if_neg (show ¬ i = 2 * i + 1 by omega)]; exact hl'
    have g2 := SameBoxes.put q1 k2
    have q2 : (put (put h i (X.propagate n l r).1) (2 * i + 1) (X.propagate n l r).2.1)[2 * i + 2]? = some r := by
      simp only [put, List.getElem?_set, if_neg (show ¬ i = 2 * i + 2 by omega),
        if_neg (show ¬ 2 * i + 1 = 2 * i + 2 by omega)]; exact hr'
    exact (g1.trans g2).trans (SameBoxes.put q2 k3)
  · exact post_pure (.refl h)

theorem walkT_shape (K : Keeps X) {stp : RNode V U → Bool} {fin : Option (RNode V U → RNode V U)}
    (hf : ∀ n, SameBox n (finOf fin n)) (fuel : Nat) : ∀ {h : List (RNode V U)} {i a b s e k : Nat},
    Shape h i a b → a ≤ s → s ≤ e → e ≤ b → b - a < fuel →
    Post (walkT X stp fin fuel s e i) k h fun _ h' => SameBoxes h h' := by
  induction fuel with
  | zero => intro h i a b s e k _ _ _ _ hf; omega
  | succ fuel ih =>
    intro h i a b s e k rep h1 h2 h3 hfu
    obtain ⟨n, hn, hs, he, hi⟩ := rep.root
    unfold walkT
    refine post_bind (post_cell hn ?_)
    simp only
    by_cases c : (n.start = s ∧ e = n.stop) ∧ (n.leaf = true ∨ stp n = true)
    · rw [if_pos c]
      cases fin with
      | none => exact post_bind (post_tick (SameBoxes.refl h) fun k' => post_pure (.refl h))
      | some f =>
        have sb := SameBoxes.put hn (hf n)
        exact post_bind (post_tick (SameBoxes.refl h) fun k' => post_bind (post_store (post_bind (post_tick sb fun k'' =>
          post_pure sb))))
    · rw [if_neg c]
      cases rep with
      | leaf hn' hs' he' hi' =>
        exfalso
        apply c
        refine ⟨by omega, .inl ?_⟩
        simp [RNode.leaf]; omega
      | node hab hn' hs' he' hi' hl hr =>
        have hlf : n.leaf = false := by simp [RNode.leaf]; omega
        rw [if_pos hlf]
        have hcen : n.center = (a + b) / 2 := by rw [RNode.center, hs, he]
        obtain ⟨l, hl', -⟩ := hl.root
        obtain ⟨r, hr', -⟩ := hr.root
        have hli : leftOf n.index = 2 * i + 1 := by rw [hi, leftOf_eq]
        have hri : rightOf n.index = 2 * i + 2 := by rw [hi, rightOf_eq]
        simp only [hli, hri, hcen]
        refine post_bind (post_cell hl' (post_bind (post_cell hr' (post_bind ?_))))
        refine (pushDown_shape K hn hi hl' hr').mono fun q hh1 sb => ?_
        cases q with
        | none => exact sb
        | some q =>
          obtain ⟨k1, u1⟩ := q
          simp only
          have hl1 := hl.same sb
          have hr1 := hr.same sb
          have fini : ∀ (h3 : List (RNode V U)) (v : V) (k : Nat), SameBoxes h h3 →
              Post (do
                let n ← cell i
                let l ← cell (2 * i + 1)
                let r ← cell (2 * i + 2)
                tick
                store i { n with value := X.join l.value r.value }
                pure v : TM V U V) k h3 fun _ h' => SameBoxes h h' := by
            intro h3 v k kk
            obtain ⟨n3, g1, -⟩ := kk.2 i n hn
            obtain ⟨l3, g2, -⟩ := kk.2 _ l hl'
            obtain ⟨r3, g3, -⟩ := kk.2 _ r hr'
            exact post_bind (post_cell g1 (post_bind (post_cell g2 (post_bind (post_cell g3 (post_bind (post_tick kk fun k' =>
              post_bind (post_store (post_pure (kk.trans (.put g1 ⟨rfl, rfl, rfl⟩)))))))))))
          by_cases c1 : s ≤ (a + b) / 2 ∧ e > (a + b) / 2
          · simp only [if_pos c1]
            refine post_bind (post_bind (post_tick sb fun k2 => post_bind ?_))
            refine (ih hl1 h1 c1.1 (Nat.le_refl _) (by omega)).mono fun q h2' w2 => ?_
            cases q with
            | none => exact sb.trans w2
            | some q =>
              refine post_bind ?_
              refine (ih (hr1.same w2) (Nat.le_refl _) (show _ ≤ e by omega) h3 (by omega)).mono fun q h3' y2 => ?_
              have tr := (sb.trans w2).trans y2
              cases q with
              | none => exact tr
              | some q => exact post_bind (post_tick tr fun k4 => post_pure (fini h3' _ _ tr))
          · simp only [if_neg c1]
            by_cases c2 : s ≤ (a + b) / 2
            · simp only [if_pos c2]
              refine post_bind ?_
              refine (ih hl1 h1 h2 (show e ≤ _ by omega) (by omega)).mono fun q h2' w2 => ?_
              cases q with
              | none => exact sb.trans w2
              | some q => exact fini h2' _ _ (sb.trans w2)
            · simp only [if_neg c2, if_pos (show e > (a + b) / 2 by omega)]
              refine post_bind ?_
              refine (ih hr1 (show _ ≤ s by omega) h2 h3 (by omega)).mono fun q h2' w2 => ?_
              cases q with
              | none => exact sb.trans w2
              | some q => exact fini h2' _ _ (sb.trans w2)

/-- Building over the interval structure of the same elements keeps it, also when interrupted. -/
theorem buildNodeT_shape {input : List T} (fuel : Nat) : ∀ {h : List (RNode V U)} {i a b k : Nat},
    Shape h i a b → b < input.length → b - a < fuel →
    Post (buildNodeT X input fuel i) k h fun _ h' => SameBoxes h h' := by
  induction fuel with
  | zero => intro h i a b k _ _ hf; omega
  | succ fuel ih =>
    intro h i a b k rep hb hfu
    obtain ⟨n, hn, hs, he, hi⟩ := rep.root
    unfold buildNodeT
    refine post_bind (post_cell hn ?_)
    simp only
    cases rep with
    | leaf hn' hs' he' hi' =>
      rw [if_neg (by omega)]
      have hx : rd input n.start = .ok input[a] := by rw [hs, rd_lt hb]
      refine post_bind ⟨some (k, input[a]), h, by simp only [hx, Res.bind_ok], ?_⟩
      exact post_bind (post_tick (SameBoxes.refl h) fun k' => post_store (.put hn ⟨rfl, rfl, rfl⟩))
    | node hab hn' hs' he' hi' hl hr =>
      rw [if_pos (by omega)]
      have hcen : n.center = (a + b) / 2 := by rw [RNode.center, hs, he]
      obtain ⟨l, hl', l1, l2, l3⟩ := hl.root
      obtain ⟨r, hr', r1, r2, r3⟩ := hr.root
      have hli : leftOf n.index = 2 * i + 1 := by rw [hi, leftOf_eq]
      have hri : rightOf n.index = 2 * i + 2 := by rw [hi, rightOf_eq]
      simp only [hli, hri, hcen]
      have step : ∀ (g : List (RNode V U)) (j : Nat) (c c' : RNode V U), SameBoxes h g → h[j]? = some c → SameBox c c' →
          SameBoxes h (put g j c') := by
        intro g j c c' sb hc e
        obtain ⟨m, g1, g2⟩ := sb.2 j c hc
        exact sb.trans (.put g1 ⟨e.1.trans g2.1.symm, e.2.1.trans g2.2.1.symm, e.2.2.trans g2.2.2.symm⟩)
      refine post_bind (post_cell hl' (post_bind (post_cell hr' (post_bind (post_store (post_bind (post_store ?_)))))))
      have s1 := step h _ l { l with start := n.start, stop := (a + b) / 2, index := 2 * i + 1 } (.refl h) hl'
        ⟨by simp only; omega, by simp only; omega, by simp only; omega⟩
      have s2 := step _ _ r { r with start := (a + b) / 2 + 1, stop := n.stop, index := 2 * i + 2 } s1 hr'
        ⟨by simp only; omega, by simp only; omega, by simp only; omega⟩
      have s3 := step _ _ l { l with start := n.start, stop := (a + b) / 2, index := 2 * i + 1, lazy := X.none } s2 hl'
        ⟨by simp only; omega, by simp only; omega, by simp only; omega⟩
      have s4 := step _ _ r { r with start := (a + b) / 2 + 1, stop := n.stop, index := 2 * i + 2, lazy := X.none } s3 hr'
        ⟨by simp only; omega, by simp only; omega, by simp only; omega⟩
      refine post_bind (post_tick s2 fun k1 => post_bind (post_store (post_bind (post_tick s3 fun k2 =>
        post_bind (post_store (post_bind ?_))))))
      refine (ih (hl.same s4) (by omega) (by omega)).mono fun q h2 w => ?_
      have s5 := s4.trans w
      cases q with
      | none => exact s5
      | some q =>
        refine post_bind ?_
        refine (ih (hr.same s5) (by omega) (by omega)).mono fun q h3 w2 => ?_
        have s6 := s5.trans w2
        cases q with
        | none => exact s6
        | some q =>
          obtain ⟨n3, g1, -⟩ := s6.2 i n hn
          obtain ⟨l3, g2, -⟩ := s6.2 _ l hl'
          obtain ⟨r3, g3, -⟩ := s6.2 _ r hr'
          exact post_bind (post_cell g1 (post_bind (post_cell g2 (post_bind (post_cell g3 (post_bind (post_tick s6 fun k' =>
            post_store (s6.trans (.put g1 ⟨rfl, rfl, rfl⟩)))))))))

end Verif.Seg
