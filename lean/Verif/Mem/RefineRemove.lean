import Verif.Mem.Refine

/-! `remove` on the memory does what the tree model says and releases exactly the removed node. -/

namespace Verif.Mem
open Avl (Tree)
set_option linter.unusedSectionVars false
variable {α : Type}

theorem leftmost_rep (s : St α) (t : Tree α) : ∀ (fuel : Nat) (m : α), Rep s.mem t → (ids t).length ≤ fuel →
    t.leftmost = some m → ∃ j c, leftmost fuel s (ptr t) = .ok j ∧ j ∈ ids t ∧ s.mem j = some c ∧ c.val = m := by
  induction t with
  | nil => intro _ _ _ _ h; cases h
  | node i p v h l r ihl _ =>
    intro fuel m hr hf hm
    simp only [ids, List.length_cons, List.length_append] at hf
    obtain ⟨fuel, rfl⟩ : ∃ f, fuel = f + 1 := ⟨fuel - 1, by omega⟩
    cases l with
    | nil =>
      simp only [Tree.leftmost, Option.some.injEq] at hm
      exact ⟨i, _, by simp [leftmost, cell_eq hr.1], by simp [ids], hr.1, hm⟩
    | node i2 p2 v2 h2 l2 r2 =>
      obtain ⟨j, c, e, hj, hc, hv⟩ := ihl fuel m hr.2.1 (by omega) hm
      refine ⟨j, c, ?_, by simp only [ids] at hj ⊢; simp at hj ⊢; tauto, hc, hv⟩
      simp only [ptr_node] at e
      simp only [leftmost, ptr_node, cell_eq hr.1, Res.bind_ok, e]

variable [LinearOrder α]

theorem ids_remove (n : Nat) (x : α) (t : Tree α) : (ids (t.remove n x).1).Subperm (ids t) := by
  induction t generalizing x with
  | nil => simp [Tree.remove, ids]
  | node i p v h l r ihl ihr =>
    have hL : ∀ {l' : Tree α} {w : α}, (ids l').Subperm (ids l) →
        (ids (Tree.rotateOnRemove (.node i p w h l' r))).Subperm (ids (.node i p v h l r)) := fun hl =>
      (ids_rotateOnRemove _).subperm.trans ((List.subperm_cons _).2 (hl.append (List.Subperm.refl _)))
    have hR : ∀ {r' : Tree α} {w : α}, (ids r').Subperm (ids r) →
        (ids (Tree.rotateOnRemove (.node i p w h l r'))).Subperm (ids (.node i p v h l r)) := fun hl =>
      (ids_rotateOnRemove _).subperm.trans ((List.subperm_cons _).2 ((List.Subperm.refl _).append hl))
    unfold Tree.remove
    split
    · exact hL (ihl x)
    · split
      · exact hR (ihr x)
      · split
        · simp [ids]
        · dsimp only
          refine (ids_rotateOnRemove _).subperm.trans ?_
          simp only [Tree.setParent, ids, List.append_nil]
          exact (List.sublist_cons_self _ _).subperm
        · dsimp only
          refine (ids_rotateOnRemove _).subperm.trans ?_
          simp only [Tree.setParent, ids, List.nil_append]
          exact (List.sublist_cons_self _ _).subperm
        · split
          · exact List.Subperm.refl _
          · rename_i m _
            exact hR (ihr m)

/-- The end of `remove`: rebalance the node in the slot, if any. -/
theorem remove_tail {s s1 : St α} {slot : Slot} {S : List Nat} {t : Tree α} {q : Ptr} (b : Bool) (n : Nat) (hr : Rep s1.mem t)
    (hn : (ids t).Nodup) (he : Eff slot (ptr t) S s s1) (hs : Holds s slot q) (hS : ∀ j ∈ ids t, j ∈ S)
    (ho : ∀ o ∈ owner slot, o ∉ S) :
    ∃ s', (do
        let node ← readSlot s1 slot
        match node with
        | none => .ok (b, n, s1)
        | some j => do
          let (p, s) ← rotateOnRemove s1 j
          let s ← writeSlot s slot p
          .ok (b, n, s) : Res (Bool × Nat × St α)) = .ok (b, n, s') ∧
      Rep s'.mem t.rotateOnRemove ∧ Eff slot (ptr t.rotateOnRemove) S s s' ∧ s'.next = s1.next ∧
      ∀ j, j ∈ S → j ∉ ids t → s'.mem j = s1.mem j := by
  have hrd : readSlot s1 slot = .ok (ptr t) := he.holds hs ho
  cases t with
  | nil => exact ⟨s1, by simp [hrd], hr, he, rfl, fun _ _ _ => rfl⟩
  | node i p v h l r =>
    obtain ⟨s2, e2, r2, u2⟩ := rotateOnRemove_rep hr hn
    have he2 := he.upd u2 hS
    refine ⟨setSlot s2 slot (ptr (Tree.rotateOnRemove (.node i p v h l r))), ?_, ?_, he2.write hs ho,
      (next_setSlot _ _ _).trans u2.next, fun j h1 h2 => ?_⟩
    · simp only [hrd, Res.bind_ok, ptr_node, e2, writeSlot_eq (he2.holds hs ho)]
    · exact rep_setSlot (fun o h1 h2 => ho o h1 (hS o ((ids_rotateOnRemove _).mem_iff.1 h2))) r2
    · rw [mem_setSlot fun h3 => ho j h3 h1, u2.frame j h2]

theorem remove_rep (t : Tree α) : ∀ (fuel : Nat) (s : St α) (slot : Slot) (ref : Ref α) (x : α) (n : Nat),
    Rep s.mem t → (ids t).Nodup → Holds s slot (ptr t) → (∀ o ∈ owner slot, o ∉ ids t) →
      (t ≠ .nil → deref s ref = .ok x) → (ids t).length < fuel →
      ∃ s', remove fuel s slot ref n = .ok ((t.remove n x).2.1, (t.remove n x).2.2, s') ∧
        Rep s'.mem (t.remove n x).1 ∧ Eff slot (ptr (t.remove n x).1) (ids t) s s' ∧ s'.next = s.next ∧
        ∀ j ∈ ids t, j ∉ ids (t.remove n x).1 → s'.mem j = none := by
  induction t with
  | nil =>
    intro fuel s slot ref x n hr hn hs ho hx hf
    obtain ⟨fuel, rfl⟩ : ∃ f, fuel = f + 1 := ⟨fuel - 1, by omega⟩
    have hrd : readSlot s slot = .ok none := hs
    refine ⟨s, by simp [remove, hrd, Tree.remove], hr, ⟨?_, fun j _ => ?_⟩, rfl, by simp [ids]⟩
    · rw [show ptr (Tree.remove n (Tree.nil : Tree α) x).1 = ptr (.nil : Tree α) from rfl, setSlot_self hs]
    · rw [show ptr (Tree.remove n (Tree.nil : Tree α) x).1 = ptr (.nil : Tree α) from rfl, setSlot_self hs]
  | node i p v h l r ihl ihr =>
    intro fuel s slot ref x n hr hn hs ho hx hfu
    obtain ⟨n1, n2, n3, n4, n5⟩ := nodup_node.1 hn
    simp only [ids, List.length_cons, List.length_append] at hfu
    obtain ⟨fuel, rfl⟩ : ∃ f, fuel = f + 1 := ⟨fuel - 1, by omega⟩
    have hx := hx (by simp)
    have hread : readSlot s slot = .ok (some i) := hs
    -- after working on the right subtree from a state that agrees with `s` except for the value of node `i`
    have tailR : ∀ (w y : α) (s0 s1 : St α), (∀ j, j ≠ i → s0.mem j = s.mem j) → s0.roots = s.roots → s0.next = s.next →
        s0.mem i = some ⟨p, w, h, ptr l, ptr r⟩ →
        Rep s1.mem (r.remove n y).1 → Eff (.right i) (ptr (r.remove n y).1) (ids r) s0 s1 → s1.next = s0.next →
        (∀ j ∈ ids r, j ∉ ids (r.remove n y).1 → s1.mem j = none) →
        ∃ s', (do
            let node ← readSlot s1 slot
            match node with
            | none => .ok ((r.remove n y).2.1, (r.remove n y).2.2, s1)
            | some j => do
              let (p, s) ← rotateOnRemove s1 j
              let s ← writeSlot s slot p
              .ok ((r.remove n y).2.1, (r.remove n y).2.2, s) : Res (Bool × Nat × St α)) =
            .ok ((r.remove n y).2.1, (r.remove n y).2.2, s') ∧
          Rep s'.mem (Tree.rotateOnRemove (.node i p w h l (r.remove n y).1)) ∧
          Eff slot (ptr (Tree.rotateOnRemove (.node i p w h l (r.remove n y).1))) (ids (.node i p v h l r)) s s' ∧
          s'.next = s.next ∧
          ∀ j ∈ ids (.node i p v h l r), j ∉ ids (Tree.rotateOnRemove (.node i p w h l (r.remove n y).1)) → s'.mem j = none := by
      intro w y s0 s1 a1 a2 a3 a4 r1 f1 x1 d1
      have hsub := ids_remove n y r
      have hmem : ∀ j, j ∈ ids (r.remove n y).1 → j ∈ ids r := fun j hj => hsub.subset hj
      have hi1 := f1.frame i n2
      simp only [setSlot, a4, mem_set_self] at hi1
      have fr : ∀ j, j ≠ i → j ∉ ids r → s1.mem j = s.mem j := fun j h1 h2 => by
        rw [f1.frame j h2, mem_setSlot (by simpa [owner] using h1), a1 j h1]
      have rep1 : Rep s1.mem (.node i p w h l (r.remove n y).1) :=
        ⟨hi1, hr.2.1.congr fun j hj => fr j (by rintro rfl; exact n1 hj) (n5 j hj), r1⟩
      have nd1 : (ids (.node i p w h l (r.remove n y).1)).Nodup :=
        nodup_node.2 ⟨n1, fun hj => n2 (hmem _ hj), n3, by
          obtain ⟨l', hp, hl'⟩ := hsub
          exact hp.nodup_iff.1 (hl'.nodup n4), fun j hj hj' => n5 j hj (hmem _ hj')⟩
      have sub1 : ∀ j ∈ ids (.node i p w h l (r.remove n y).1), j ∈ ids (.node i p v h l r) := fun j hj => by
        simp only [ids, List.mem_cons, List.mem_append] at hj ⊢
        rcases hj with hj | hj | hj
        · exact Or.inl hj
        · exact Or.inr (Or.inl hj)
        · exact Or.inr (Or.inr (hmem _ hj))
      have eff1 : Eff slot (ptr (.node i p w h l (r.remove n y).1)) (ids (.node i p v h l r)) s s1 := by
        constructor
        · rw [ptr_node, setSlot_self (show Holds s slot (some i) from hs), f1.roots]
          simp [setSlot, a4, a2]
        · intro j hj
          simp only [ids, List.mem_cons, List.mem_append, not_or] at hj
          rw [ptr_node, setSlot_self (show Holds s slot (some i) from hs), fr j hj.1 hj.2.2]
      obtain ⟨s2, e2, r2, f2, x2, g2⟩ := remove_tail (r.remove n y).2.1 (r.remove n y).2.2 rep1 nd1 eff1 hs sub1 ho
      refine ⟨s2, e2, r2, f2, x2.trans (x1.trans a3), fun j hj hj' => ?_⟩
      have hj' : j ∉ ids (.node i p w h l (r.remove n y).1) := fun h => hj' ((ids_rotateOnRemove _).mem_iff.2 h)
      rw [g2 j hj hj']
      simp only [ids, List.mem_cons, List.mem_append, not_or] at hj hj'
      rcases hj with hj | hj | hj
      · exact absurd hj hj'.1
      · exact absurd hj hj'.2.1
      · exact d1 j hj hj'.2.2
    have tailL : ∀ (s1 : St α),
        Rep s1.mem (l.remove n x).1 → Eff (.left i) (ptr (l.remove n x).1) (ids l) s s1 → s1.next = s.next →
        (∀ j ∈ ids l, j ∉ ids (l.remove n x).1 → s1.mem j = none) →
        ∃ s', (do
            let node ← readSlot s1 slot
            match node with
            | none => .ok ((l.remove n x).2.1, (l.remove n x).2.2, s1)
            | some j => do
              let (p, s) ← rotateOnRemove s1 j
              let s ← writeSlot s slot p
              .ok ((l.remove n x).2.1, (l.remove n x).2.2, s) : Res (Bool × Nat × St α)) =
            .ok ((l.remove n x).2.1, (l.remove n x).2.2, s') ∧
          Rep s'.mem (Tree.rotateOnRemove (.node i p v h (l.remove n x).1 r)) ∧
          Eff slot (ptr (Tree.rotateOnRemove (.node i p v h (l.remove n x).1 r))) (ids (.node i p v h l r)) s s' ∧
          s'.next = s.next ∧
          ∀ j ∈ ids (.node i p v h l r), j ∉ ids (Tree.rotateOnRemove (.node i p v h (l.remove n x).1 r)) → s'.mem j = none := by
      intro s1 r1 f1 x1 d1
      have hsub := ids_remove n x l
      have hmem : ∀ j, j ∈ ids (l.remove n x).1 → j ∈ ids l := fun j hj => hsub.subset hj
      have hi1 := f1.frame i n1
      simp only [setSlot, hr.1, mem_set_self] at hi1
      have fr : ∀ j, j ≠ i → j ∉ ids l → s1.mem j = s.mem j := fun j h1 h2 => by
        rw [f1.frame j h2, mem_setSlot (by simpa [owner] using h1)]
      have rep1 : Rep s1.mem (.node i p v h (l.remove n x).1 r) :=
        ⟨hi1, r1, hr.2.2.congr fun j hj => fr j (by rintro rfl; exact n2 hj) fun hj' => n5 j hj' hj⟩
      have nd1 : (ids (.node i p v h (l.remove n x).1 r)).Nodup :=
        nodup_node.2 ⟨fun hj => n1 (hmem _ hj), n2, by
          obtain ⟨l', hp, hl'⟩ := hsub
          exact hp.nodup_iff.1 (hl'.nodup n3), n4, fun j hj hj' => n5 j (hmem _ hj) hj'⟩
      have sub1 : ∀ j ∈ ids (.node i p v h (l.remove n x).1 r), j ∈ ids (.node i p v h l r) := fun j hj => by
        simp only [ids, List.mem_cons, List.mem_append] at hj ⊢
        rcases hj with hj | hj | hj
        · exact Or.inl hj
        · exact Or.inr (Or.inl (hmem _ hj))
        · exact Or.inr (Or.inr hj)
      have eff1 : Eff slot (ptr (.node i p v h (l.remove n x).1 r)) (ids (.node i p v h l r)) s s1 := by
        constructor
        · rw [ptr_node, setSlot_self (show Holds s slot (some i) from hs), f1.roots]
          simp [setSlot, hr.1]
        · intro j hj
          simp only [ids, List.mem_cons, List.mem_append, not_or] at hj
          rw [ptr_node, setSlot_self (show Holds s slot (some i) from hs), fr j hj.1 hj.2.1]
      obtain ⟨s2, e2, r2, f2, x2, g2⟩ := remove_tail (l.remove n x).2.1 (l.remove n x).2.2 rep1 nd1 eff1 hs sub1 ho
      refine ⟨s2, e2, r2, f2, x2.trans x1, fun j hj hj' => ?_⟩
      have hj' : j ∉ ids (.node i p v h (l.remove n x).1 r) := fun h => hj' ((ids_rotateOnRemove _).mem_iff.2 h)
      rw [g2 j hj hj']
      simp only [ids, List.mem_cons, List.mem_append, not_or] at hj hj'
      rcases hj with hj | hj | hj
      · exact absurd hj hj'.1
      · exact d1 j hj hj'.2.1
      · exact absurd hj hj'.2.2
    -- the node is unlinked and its only child `ch` (if any) takes its place
    have unlink : ∀ (ch : Tree α) (k : Nat), ptr ch = some k → Rep s.mem ch → (ids ch).Nodup → i ∉ ids ch →
        (∀ j, j ∈ ids (.node i p v h l r) ↔ j = i ∨ j ∈ ids ch) →
        ∃ s1, (do
            let s ← writeSlot s slot (ptr ch)
            let s ← ((match ptr ch with
              | some ch => do
                let s ← change s i fun c => { c with left := none, right := none }
                let tc ← cell s i
                change s ch fun c => { c with par := tc.par }
              | none => .ok s) : Res (St α))
            let s ← deleteNode fuel s i
            .ok (true, (n + W - 1) % W, s) : Res (Bool × Nat × St α)) = .ok (true, (n + W - 1) % W, s1) ∧
          ∃ s', (do
            let node ← readSlot s1 slot
            match node with
            | none => .ok (true, (n + W - 1) % W, s1)
            | some j => do
              let (p, s) ← rotateOnRemove s1 j
              let s ← writeSlot s slot p
              .ok (true, (n + W - 1) % W, s) : Res (Bool × Nat × St α)) = .ok (true, (n + W - 1) % W, s') ∧
          Rep s'.mem (Tree.rotateOnRemove (ch.setParent p)) ∧
          Eff slot (ptr (Tree.rotateOnRemove (ch.setParent p))) (ids (.node i p v h l r)) s s' ∧
          s'.next = s.next ∧
          ∀ j ∈ ids (.node i p v h l r), j ∉ ids (Tree.rotateOnRemove (ch.setParent p)) → s'.mem j = none := by
      intro ch k hk hrc hnc hic hids
      cases ch with
      | nil => cases hk
      | node ci cp cv chh cl cr =>
        have hoi : i ∉ owner slot := fun h => ho i h (by simp [ids])
        have hci : ci ≠ i := by rintro rfl; exact hic (by simp [ids])
        have hoc : ci ∉ owner slot := fun h => ho ci h ((hids ci).2 (Or.inr (by simp [ids])))
        have hi0 : (setSlot s slot (some ci)).mem i = some ⟨p, v, h, ptr l, ptr r⟩ := by rw [mem_setSlot hoi, hr.1]
        have hc0 : ((setSlot s slot (some ci)).set i ⟨p, v, h, none, none⟩).mem ci = some ⟨cp, cv, chh, ptr cl, ptr cr⟩ := by
          rw [mem_set_ne _ hci, mem_setSlot hoc, hrc.1]
        have hi1 : (((setSlot s slot (some ci)).set i ⟨p, v, h, none, none⟩).set ci ⟨p, cv, chh, ptr cl, ptr cr⟩).mem i =
            some ⟨p, v, h, none, none⟩ := by rw [mem_set_ne _ hci.symm, mem_set_self]
        obtain ⟨s1, e1, a1, b1, c1⟩ := deleteNode_rep (.node i p v h .nil .nil) fuel _ i rfl ⟨hi1, trivial, trivial⟩
          (by simp [ids]) (by simp [ids]; omega)
        refine ⟨s1, ?_, ?_⟩
        · simp only [writeSlot_eq hs, Res.bind_ok, ptr_node, change_eq hi0, cell_eq (mem_set_self _ _ _), change_eq hc0]
          rw [e1]; rfl
        · have nmem : ∀ {t' : Tree α}, (∀ j ∈ ids t', j ∈ ids cl ∨ j ∈ ids cr) → Rep s.mem t' → Rep s1.mem t' := by
            intro t' hsub' hrep
            refine hrep.congr fun j hj => ?_
            have hjch : j ∈ ids (.node ci cp cv chh cl cr) := by simpa [ids] using Or.inr (hsub' j hj)
            have hji : j ≠ i := by rintro rfl; exact hic hjch
            have hjc : j ≠ ci := by
              rintro rfl
              obtain ⟨m1, m2, -⟩ := nodup_node.1 hnc
              exact (hsub' j hj).elim m1 m2
            rw [c1, if_neg (by simpa [ids] using hji), mem_set_ne _ hjc, mem_set_ne _ hji,
              mem_setSlot fun h' => ho j h' ((hids j).2 (Or.inr hjch))]
          have rep1 : Rep s1.mem (.node ci p cv chh cl cr) := by
            refine ⟨?_, nmem (fun j hj => Or.inl hj) hrc.2.1, nmem (fun j hj => Or.inr hj) hrc.2.2⟩
            rw [c1, if_neg (by simpa [ids] using hci), mem_set_self]
          have eff1 : Eff slot (ptr (.node ci p cv chh cl cr)) (ids (.node i p v h l r)) s s1 := by
            refine ⟨by rw [a1]; rfl, fun j hj => ?_⟩
            have hji : j ≠ i := fun e => hj ((hids j).2 (Or.inl e))
            have hjc : j ≠ ci := fun e => hj ((hids j).2 (Or.inr (by simp [ids, e])))
            rw [c1, if_neg (by simpa [ids] using hji), mem_set_ne _ hjc, mem_set_ne _ hji, ptr_node]
          obtain ⟨s2, e2, r2, f2, x2, g2⟩ := remove_tail true ((n + W - 1) % W) rep1 hnc eff1 hs
            (fun j hj => (hids j).2 (Or.inr hj)) ho
          refine ⟨s2, e2, r2, f2, x2.trans (b1.trans (next_setSlot _ _ _)), fun j hj hj' => ?_⟩
          have hj' : j ∉ ids (.node ci p cv chh cl cr) := fun h => hj' ((ids_rotateOnRemove _).mem_iff.2 h)
          rw [g2 j hj hj']
          rcases (hids j).1 hj with rfl | hj2
          · rw [c1]; simp [ids]
          · exact absurd hj2 hj'
    unfold Tree.remove
    unfold remove
    simp only [hread, Res.bind_ok, cell_eq hr.1, hx]
    by_cases c1 : x < v
    · rw [if_pos c1, if_pos c1]
      obtain ⟨s1, e1, r1, f1, x1, d1⟩ := ihl fuel s (.left i) ref x n hr.2.1 n3 (holds_left.2 ⟨_, hr.1, rfl⟩)
        (by simpa [owner] using n1) (fun _ => hx) (by omega)
      obtain ⟨s2, e2, r2⟩ := tailL s1 r1 f1 x1 d1
      exact ⟨s2, (congrArg (· >>= _) e1).trans e2, r2⟩
    · rw [if_neg c1, if_neg c1]
      by_cases c2 : v < x
      · rw [if_pos c2, if_pos c2]
        obtain ⟨s1, e1, r1, f1, x1, d1⟩ := ihr fuel s (.right i) ref x n hr.2.2 n4 (holds_right.2 ⟨_, hr.1, rfl⟩)
          (by simpa [owner] using n2) (fun _ => hx) (by omega)
        obtain ⟨s2, e2, r2⟩ := tailR v x s s1 (fun _ _ => rfl) rfl rfl hr.1 r1 f1 x1 d1
        exact ⟨s2, (congrArg (· >>= _) e1).trans e2, r2⟩
      · rw [if_neg c2, if_neg c2]
        cases l with
        | nil =>
          cases r with
          | nil =>
            have hoi : i ∉ owner slot := fun h => ho i h (by simp [ids])
            have hi0 : (setSlot s slot none).mem i = some ⟨p, v, h, none, none⟩ := by rw [mem_setSlot hoi, hr.1]; rfl
            obtain ⟨s1, e1, a1, b1, c1⟩ := deleteNode_rep (.node i p v h .nil .nil) fuel (setSlot s slot none) i rfl
              ⟨hi0, trivial, trivial⟩ (by simp [ids]) (by simp [ids]; omega)
            have eff1 : Eff slot (ptr (.nil : Tree α)) (ids (.node i p v h (.nil : Tree α) .nil)) s s1 :=
              ⟨a1, fun j hj => by rw [c1, if_neg hj]; rfl⟩
            obtain ⟨s2, e2, r2, f2, x2, g2⟩ := remove_tail true ((n + W - 1) % W) (t := .nil) trivial (by simp [ids]) eff1 hs
              (by simp [ids]) ho
            refine ⟨s2, ?_, r2, f2, x2.trans (b1.trans (next_setSlot _ _ _)), fun j hj hj' => ?_⟩
            · simp only [ptr_nil, ne_eq, not_true_eq_false, and_self, if_false, writeSlot_eq hs, Res.bind_ok, e1]
              exact e2
            · rw [g2 j hj (by simp [ids]), c1, if_pos hj]
          | node ri rp rv rh rl rr =>
            obtain ⟨s1, e1, s2, e2, r2⟩ := unlink (.node ri rp rv rh rl rr) ri rfl hr.2.2 n4 n2 (by simp [ids])
            refine ⟨s2, ?_, r2⟩
            simp only [ptr_nil, ne_eq, not_true_eq_false, false_and, if_false]
            exact (congrArg (· >>= _) e1).trans e2
        | node li lp lv lh ll lr =>
          cases r with
          | nil =>
            obtain ⟨s1, e1, s2, e2, r2⟩ := unlink (.node li lp lv lh ll lr) li rfl hr.2.1 n3 n1 (by simp [ids])
            refine ⟨s2, ?_, r2⟩
            simp only [ptr_nil, ne_eq, not_true_eq_false, and_false, if_false, ptr_node, reduceCtorEq, not_false_eq_true, if_true]
            exact (congrArg (· >>= _) e1).trans e2
          | node ri rp rv rh rl rr =>
            simp only
            cases hm : Tree.leftmost (.node ri rp rv rh rl rr) with
            | none =>
              rw [Avl.leftmost_eq] at hm
              simp [Avl.Spec.inorder] at hm
            | some m =>
              obtain ⟨j, c, ej, hj, hc, rfl⟩ := leftmost_rep s _ fuel m hr.2.2 (by simp only [ids] at hfu ⊢; simp at hfu ⊢; omega) hm
              have hji : j ≠ i := by rintro rfl; exact n2 hj
              have h0 : ∀ j', j' ≠ i → (s.set i ⟨p, c.val, h, some li, some ri⟩).mem j' = s.mem j' := fun j' h' => mem_set_ne _ h' _
              obtain ⟨s1, e1, r1, f1, x1, d1⟩ := ihr fuel (s.set i ⟨p, c.val, h, some li, some ri⟩) (.right i) (.val c.val) c.val n
                (rep_set n2 hr.2.2) n4 (holds_right.2 ⟨_, mem_set_self _ _ _, rfl⟩) (by simpa [owner] using n2) (fun _ => rfl)
                (by omega)
              obtain ⟨s2, e2, r2⟩ := tailR c.val c.val _ s1 h0 rfl rfl (by rw [mem_set_self]; rfl) r1 f1 x1 d1
              refine ⟨s2, ?_, r2⟩
              simp only [ptr_node] at ej
              simp only [ptr_node, ne_eq, reduceCtorEq, not_false_eq_true, and_self, if_true, ej, Res.bind_ok, cell_eq hc,
                change_eq hr.1, cell_eq ((h0 j hji).trans hc)]
              exact (congrArg (· >>= _) e1).trans e2

end Verif.Mem
