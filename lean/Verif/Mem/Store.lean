import Verif.Mem.Follow

/-! Several tree objects behave as several multisets. -/

namespace Verif.Mem
open Avl (Tree)
open Avl.Spec (inorder MSet)
open Spec
set_option linter.unusedSectionVars false
variable {α : Type} [LinearOrder α]

/-! ### The counter does not influence the rest -/

theorem insert_counter (dups : Bool) (fresh : Nat) (x : α) (n m : Nat) (t : Tree α) : ∀ par,
    (t.insert dups fresh x n par).1 = (t.insert dups fresh x m par).1 ∧
      (t.insert dups fresh x n par).2.1 = (t.insert dups fresh x m par).2.1 := by
  induction t with
  | nil => intro par; exact ⟨rfl, rfl⟩
  | node i p v h l r ihl ihr =>
    intro par
    obtain ⟨a1, a2⟩ := ihl (some i)
    obtain ⟨b1, b2⟩ := ihr (some i)
    simp only [Tree.insert]
    split
    · simp only [a1, a2, and_self]
    · split
      · simp only [b1, b2, and_self]
      · split
        · simp only [b1, b2, and_self]
        · exact ⟨rfl, rfl⟩

theorem remove_counter (n m : Nat) (t : Tree α) : ∀ x,
    (t.remove n x).1 = (t.remove m x).1 ∧ (t.remove n x).2.1 = (t.remove m x).2.1 := by
  induction t with
  | nil => intro x; exact ⟨rfl, rfl⟩
  | node i p v h l r ihl ihr =>
    intro x
    unfold Tree.remove
    split
    · obtain ⟨a1, a2⟩ := ihl x
      simp only [a1, a2, and_self]
    · split
      · obtain ⟨b1, b2⟩ := ihr x
        simp only [b1, b2, and_self]
      · split
        · exact ⟨rfl, rfl⟩
        · exact ⟨rfl, rfl⟩
        · exact ⟨rfl, rfl⟩
        · split
          · exact ⟨rfl, rfl⟩
          · next m' _ =>
            obtain ⟨b1, b2⟩ := ihr m'
            simp only [b1, b2, and_self]

/-- Equal but for the counter. -/
structure Alike (a b : Avl.Avl α) : Prop where
  root : a.root = b.root
  dups : a.dups = b.dups
  next : a.next = b.next

theorem Alike.remove {a b : Avl.Avl α} (h : Alike a b) (x : α) :
    Alike (a.remove x).1 (b.remove x).1 ∧ (a.remove x).2 = (b.remove x).2 := by
  obtain ⟨h1, h2⟩ := remove_counter a.size b.size b.root x
  refine ⟨⟨?_, h.dups, h.next⟩, ?_⟩
  · simp only [Avl.Avl.remove, h.root, h1]
  · simp only [Avl.Avl.remove, h.root, h2]

theorem Alike.removeAll (x : α) : ∀ (fuel : Nat) {a b : Avl.Avl α} (cnt : Nat) {a' : Avl.Avl α} {c : Nat}, Alike a b →
    Avl.Avl.removeAllFuel fuel a x cnt = some (a', c) → ∃ b', Avl.Avl.removeAllFuel fuel b x cnt = some (b', c) ∧ Alike a' b' := by
  intro fuel
  induction fuel with
  | zero => intro a b cnt a' c _ h; cases h
  | succ fuel ih =>
    intro a b cnt a' c h hr
    obtain ⟨h1, h2⟩ := h.remove x
    simp only [Avl.Avl.removeAllFuel] at hr ⊢
    generalize a.remove x = p at *
    generalize b.remove x = q at *
    obtain ⟨a1, b1⟩ := p
    obtain ⟨a2, b2⟩ := q
    simp only at h1 h2
    subst h2
    cases b1 with
    | true => exact ih _ h1 hr
    | false =>
      simp only [Option.some.injEq, Prod.mk.injEq] at hr
      obtain ⟨rfl, rfl⟩ := hr
      exact ⟨a2, rfl, h1⟩

theorem Alike.step {a b a' : Avl.Avl α} {op : Avl.Op α} {o : Avl.Out} (h : Alike a b) (hs : Avl.step a op = .ok (a', o)) :
    ∃ b', Avl.step b op = .ok (b', o) ∧ Alike a' b' := by
  cases op with
  | insert x =>
    simp only [Avl.step, Res.ok.injEq, Prod.mk.injEq] at hs
    obtain ⟨rfl, rfl⟩ := hs
    obtain ⟨h1, h2⟩ := insert_counter b.dups b.next x a.size b.size b.root none
    refine ⟨(b.insert x).1, ?_, ⟨?_, h.dups, ?_⟩⟩
    · simp only [Avl.step, Avl.Avl.insert, h.root, h.dups, h.next, h2]
    · simp only [Avl.Avl.insert, h.root, h.dups, h.next, h1]
    · simp only [Avl.Avl.insert, h.next]
  | remove x =>
    simp only [Avl.step, Res.ok.injEq, Prod.mk.injEq] at hs
    obtain ⟨rfl, rfl⟩ := hs
    obtain ⟨h1, h2⟩ := h.remove x
    exact ⟨(b.remove x).1, by simp only [Avl.step, h2], h1⟩
  | removeAll x =>
    simp only [Avl.step, Avl.Avl.removeAll] at hs ⊢
    rw [← h.root]
    cases hf : Avl.Avl.removeAllFuel (Avl.Avl.nodes a.root + 1) a x 0 with
    | none => rw [hf] at hs; cases hs
    | some res =>
      obtain ⟨a1, c⟩ := res
      rw [hf] at hs
      simp only [Res.bind_ok, Res.ok.injEq, Prod.mk.injEq] at hs
      obtain ⟨rfl, rfl⟩ := hs
      obtain ⟨b', h1, h2⟩ := Alike.removeAll x _ 0 h hf
      exact ⟨b', by simp only [h1, Res.bind_ok], h2⟩
  | clear =>
    simp only [Avl.step, Res.ok.injEq, Prod.mk.injEq] at hs
    obtain ⟨rfl, rfl⟩ := hs
    exact ⟨_, rfl, ⟨rfl, h.dups, h.next⟩⟩
  | enableDuplicates =>
    simp only [Avl.step, Res.ok.injEq, Prod.mk.injEq] at hs
    obtain ⟨rfl, rfl⟩ := hs
    exact ⟨_, rfl, ⟨h.root, rfl, h.next⟩⟩
  | disableDuplicates =>
    simp only [Avl.step, Res.ok.injEq, Prod.mk.injEq] at hs
    obtain ⟨rfl, rfl⟩ := hs
    exact ⟨_, rfl, ⟨h.root, rfl, h.next⟩⟩

/-! ### Simulation -/

/-- Tree `t` of object `o` is the multiset `m`. -/
structure Means (t : Tree α) (o : Obj) (m : MSet α) (stale : Bool) : Prop where
  sorted : (inorder t).Pairwise (· ≤ ·)
  mult : ∀ x, (inorder t).count x = m.mult x
  dups : o.dups = m.dups
  size : stale = false → o.size = (inorder t).length % W

theorem Means.step {s : St α} {T : Nat → Tree α} {k : Nat} {o : Obj} {m : MSet α} {stale : Bool} (h : Means (T k) o m stale)
    {op : Avl.Op α} {a' : Avl.Avl α} {out : Avl.Out} (hs : Avl.step (view s T k o) op = .ok (a', out)) :
    out = (m.step op).2 ∧ Means a'.root ⟨a'.dups, a'.size⟩ (m.step op).1 (stale && decide (op ≠ .clear)) := by
  have hb : Avl.Sim ⟨T k, o.dups, (inorder (T k)).length % W, s.next⟩ m := ⟨h.sorted, h.mult, h.dups, rfl⟩
  have hab : Alike (view s T k o) ⟨T k, o.dups, (inorder (T k)).length % W, s.next⟩ := ⟨rfl, rfl, rfl⟩
  obtain ⟨b', hs', hab'⟩ := hab.step hs
  obtain ⟨b2, h1, h2⟩ := Avl.sim_step hb op
  rw [h1] at hs'
  simp only [Res.ok.injEq, Prod.mk.injEq] at hs'
  obtain ⟨rfl, rfl⟩ := hs'
  refine ⟨rfl, ⟨by rw [hab'.root]; exact h2.sorted, by rw [hab'.root]; exact h2.mult, hab'.dups.trans h2.dups, fun hst => ?_⟩⟩
  by_cases hc : op = .clear
  · subst hc
    simp only [Avl.step, Res.ok.injEq, Prod.mk.injEq] at hs
    obtain ⟨rfl, -⟩ := hs
    rfl
  · have hst' : stale = false := by simpa [hc] using hst
    have ha : Avl.Sim (view s T k o) m := ⟨h.sorted, h.mult, h.dups, h.size hst'⟩
    obtain ⟨a2, h3, h4⟩ := Avl.sim_step ha op
    rw [hs] at h3
    simp only [Res.ok.injEq, Prod.mk.injEq] at h3
    obtain ⟨rfl, -⟩ := h3
    exact h4.size

/-- All trees of the world mean the store. -/
def Meaning (w : World α) (T : Nat → Tree α) (S : Store α) : Prop := ∀ k, Means (T k) (w.obj k) (S.sets k) (S.stale k)

theorem means_nil (d : Bool) (n : Nat) : Means (.nil : Tree α) ⟨d, n⟩ ⟨fun _ => 0, d⟩ true :=
  ⟨List.Pairwise.nil, fun _ => rfl, rfl, fun h => by cases h⟩

theorem means_empty : Means (.nil : Tree α) ⟨false, 0⟩ MSet.empty false :=
  ⟨List.Pairwise.nil, fun _ => rfl, rfl, fun _ => rfl⟩

theorem Meaning.put {w : World α} {T : Nat → Tree α} {S : Store α} (h : Meaning w T S) {s' : St α} {k : Nat} {t : Tree α} {o : Obj}
    {m : MSet α} {b : Bool} (hm : Means t o m b) : Meaning ({ w with s := s' }.setObj k o) (upd T k t) (S.put k m b) := by
  intro i
  by_cases hi : i = k
  · subst hi; simpa [World.setObj, Store.put] using hm
  · simpa [World.setObj, Store.put, upd, hi] using h i

theorem world_means (dflt : α) {w : World α} {T : Nat → Tree α} {S : Store α} (h : Inv w.s T) (hm : Meaning w T S) (op : WOp α)
    (hsane : Sane w op) :
    ∃ w' T', w.step dflt op = .ok ((S.step op).2, w') ∧ Inv w'.s T' ∧ Meaning w' T' (S.step op).1 := by
  cases op with
  | call k op =>
    obtain ⟨a', out, s', h1, h2, h3, h4⟩ := Mem.step_inv h k (w.obj k) op
    obtain ⟨e, hm'⟩ := (hm k).step h1
    subst e
    exact ⟨_, _, by simp only [World.step, h2, Res.bind_ok]; rfl, h3, hm.put hm'⟩
  | copy k j =>
    obtain ⟨s', t', h1, h2, h3, -⟩ := copyTree_inv dflt h k j
    refine ⟨_, _, by simp only [World.step, h1, Res.bind_ok]; rfl, h2, hm.put ?_⟩
    have ht : inorder t' = inorder (T j) := by
      by_cases hj : T j = .nil
      · have : T k = .nil := ptr_none.1 (by rw [← h.root k]; exact hsane.2 (by rw [h.root j, hj]; rfl))
        rw [(h3.1 hsane.1).1 hj, this, hj]
      · rw [(h3.1 hsane.1).2 hj]
        exact (Avl.copy_spec (T j) none w.s.next).1
    exact ⟨by rw [ht]; exact (hm j).sorted, by rw [ht]; exact (hm j).mult, (hm j).dups, by rw [ht]; exact (hm j).size⟩
  | move k j =>
    obtain ⟨h1, -⟩ := moveTree_inv h k j
    refine ⟨_, _, rfl, h1, fun i => ?_⟩
    have hkj : k ≠ j := hsane
    by_cases hij : i = j
    · subst hij
      simp only [upd_self, World.setObj, Store.step, Store.put, if_neg (Ne.symm hkj)]
      have := (hm i).dups
      rw [← this]
      exact means_nil _ _
    · by_cases hik : i = k
      · subst hik
        simp only [upd, hij, World.setObj, Store.step, Store.put, if_false, if_true]
        exact hm j
      · simp only [upd, hij, hik, World.setObj, Store.step, Store.put, if_false]
        exact hm i
  | destroy k =>
    obtain ⟨s', h1, h2, -, -, -⟩ := deleteRoot_inv h k
    exact ⟨_, _, by simp only [World.step, h1, Res.bind_ok]; rfl, h2, hm.put means_empty⟩

theorem store_append (ops : List (WOp α)) (op : WOp α) : ∀ S : Store α,
    (S.run (ops ++ [op])).1 = ((S.run ops).1.step op).1 ∧ (S.run (ops ++ [op])).2 = (S.run ops).2 ++ [((S.run ops).1.step op).2] := by
  induction ops with
  | nil => intro S; exact ⟨rfl, rfl⟩
  | cons o ops ih =>
    intro S
    obtain ⟨h1, h2⟩ := ih (S.step o).1
    exact ⟨h1, by simp only [List.cons_append, Store.run, h2]⟩

end Verif.Mem
