import Verif.Mem.Store

/-! References into the trees as arguments. -/

namespace Verif.Mem
open Avl (Tree SSorted)
open Avl.Spec (inorder MSet)
open Spec
set_option linter.unusedSectionVars false
variable {α : Type} [LinearOrder α]

/-- Node `i` of the tree has value `x`. -/
def HasVal (i : Nat) (x : α) : Tree α → Prop
  | .nil => False
  | .node j _ v _ l r => (i = j ∧ x = v) ∨ HasVal i x l ∨ HasVal i x r

theorem HasVal.ids {i : Nat} {x : α} {t : Tree α} (h : HasVal i x t) : i ∈ ids t := by
  induction t with
  | nil => cases h
  | node j p v hh l r ihl ihr =>
    rcases h with ⟨rfl, -⟩ | h | h
    · simp [Mem.ids]
    · simp [Mem.ids, ihl h]
    · simp [Mem.ids, ihr h]

theorem HasVal.inorder {i : Nat} {x : α} {t : Tree α} (h : HasVal i x t) : x ∈ inorder t := by
  induction t with
  | nil => cases h
  | node j p v hh l r ihl ihr =>
    rcases h with ⟨-, rfl⟩ | h | h
    · simp [Avl.Spec.inorder]
    · simp [Avl.Spec.inorder, ihl h]
    · simp [Avl.Spec.inorder, ihr h]

theorem rep_hasVal {m : Nat → Option (Cell α)} {t : Tree α} (h : Rep m t) {i : Nat} (hi : i ∈ ids t) :
    ∃ c, m i = some c ∧ HasVal i c.val t := by
  induction t with
  | nil => cases hi
  | node j p v hh l r ihl ihr =>
    simp only [ids, List.mem_cons, List.mem_append] at hi
    rcases hi with rfl | hi | hi
    · exact ⟨_, h.1, .inl ⟨rfl, rfl⟩⟩
    · obtain ⟨c, h1, h2⟩ := ihl h.2.1 hi; exact ⟨c, h1, .inr (.inl h2)⟩
    · obtain ⟨c, h1, h2⟩ := ihr h.2.2 hi; exact ⟨c, h1, .inr (.inr h2)⟩

theorem ids_setParent (p : Ptr) (t : Tree α) : ids (t.setParent p) = ids t := by cases t <;> rfl

theorem sz_pos_of_ne {t : Tree α} (h : t ≠ .nil) : 1 ≤ sz t := by
  cases t with
  | nil => exact absurd rfl h
  | node => simp [sz]

theorem mem_rotateOnRemove {t : Tree α} {i : Nat} : i ∈ ids t.rotateOnRemove ↔ i ∈ ids t := (ids_rotateOnRemove t).mem_iff

/-- Removing the value of node `i` frees node `i`, unless the node has two children. -/
theorem remove_ref (n : Nat) {i : Nat} {x : α} (t : Tree α) : SSorted (inorder t) → (ids t).Nodup → HasVal i x t →
    i ∉ ids (t.remove n x).1 ∨ 3 ≤ sz t := by
  induction t with
  | nil => intro _ _ h; cases h
  | node j p v hh l r ihl ihr =>
    intro hs hn h
    rw [show inorder (.node j p v hh l r) = inorder l ++ v :: inorder r from rfl, Avl.ssorted_iff] at hs
    obtain ⟨hl, hr, hlv, hrv⟩ := hs
    obtain ⟨n1, n2, n3, n4, n5⟩ := nodup_node.1 hn
    unfold Tree.remove
    split
    · next hx =>
      rcases h with ⟨-, rfl⟩ | h | h
      · exact absurd hx (lt_irrefl _)
      · rcases ihl hl n3 h with h1 | h1
        · refine .inl ?_
          simp only [mem_rotateOnRemove, ids, List.mem_cons, List.mem_append, not_or]
          exact ⟨fun e => n1 (e ▸ h.ids), h1, n5 i h.ids⟩
        · exact .inr (by simp only [sz]; omega)
      · exact absurd (lt_trans hx (hrv x h.inorder)) (lt_irrefl _)
    · split
      · next hx =>
        rcases h with ⟨-, rfl⟩ | h | h
        · exact absurd hx (lt_irrefl _)
        · exact absurd (lt_trans hx (hlv x h.inorder)) (lt_irrefl _)
        · rcases ihr hr n4 h with h1 | h1
          · refine .inl ?_
            simp only [mem_rotateOnRemove, ids, List.mem_cons, List.mem_append, not_or]
            exact ⟨fun e => n2 (e ▸ h.ids), fun hl => n5 i hl h.ids, h1⟩
          · exact .inr (by simp only [sz]; omega)
      · next h1 h2 =>
        have hij : i = j := by
          rcases h with ⟨e, -⟩ | h | h
          · exact e
          · exact absurd (hlv x h.inorder) h1
          · exact absurd (hrv x h.inorder) h2
        subst hij
        split
        · exact .inl (by simp [ids])
        · exact .inl (by rw [mem_rotateOnRemove, ids_setParent]; exact n1)
        · exact .inl (by rw [mem_rotateOnRemove, ids_setParent]; exact n2)
        · exact .inr (by simp only [sz]; omega)

/-- Reading through a pointer to a deleted node. -/
theorem callRemove_dangling {s : St α} {T : Nat → Tree α} (h : Inv s T) {k : Nat} (o : Obj) {i : Nat} (hk : T k ≠ .nil)
    (hi : s.mem i = none) : callRemove s k o (.node i) = .ub := by
  have hr := h.rep k
  have hroot := h.root k
  generalize T k = t at *
  cases t with
  | nil => exact absurd rfl hk
  | node j p v hh l r =>
    have hj : cell s j = .ok ⟨p, v, hh, ptr l, ptr r⟩ := cell_eq hr.1
    have hd : deref s (.node i) = .ub := by
      simp only [deref, cell, hi]; rfl
    have : remove s.fuel s (.root k) (.node i) o.size = .ub := by
      simp only [St.fuel, remove, readSlot, hroot, ptr_node, Res.bind_ok, hj, hd]
      rfl
    simp only [callRemove, this]
    rfl

/-- The loop of `remove_all` with a reference to a node of a tree without duplicates. -/
theorem ref_rounds (k i : Nat) : ∀ (N : Nat) (s : St α) (T : Nat → Tree α) (o : Obj), sz (T k) ≤ N → 2 ≤ sz (T k) → Inv s T →
    SSorted (inorder (T k)) → i ∈ ids (T k) →
    ∃ n o' s', rounds (n + 1) s k o (.node i) = .ok (o', s') ∧ s'.mem i = none ∧ s'.roots k ≠ none ∧
      callRemove s' k o' (.node i) = .ub := by
  intro N
  induction N with
  | zero => intro s T o h1 h2; omega
  | succ N ih =>
    intro s T o h1 h2 h hs hi
    obtain ⟨c, hc, hv⟩ := rep_hasVal (h.rep k) hi
    have hx : deref s (.node i) = .ok c.val := by simp [deref, cell, hc]
    obtain ⟨s1, e1, i1, -, f1, -⟩ := callRemove_inv h k o (ref := .node i) (x := c.val) fun _ => hx
    obtain ⟨g1, -, -, -, g5⟩ := Avl.remove_spec o.size (T k) c.val hs.sorted
    have hb := g1.2 hv.inorder
    have hsz := sz_remove o.size (T k) c.val hb
    rw [hb] at e1
    by_cases hin : i ∈ ids ((T k).remove o.size c.val).1
    · have h3 : 3 ≤ sz (T k) := (remove_ref o.size (T k) hs (h.nodup k) hv).resolve_left fun hn => hn hin
      obtain ⟨n, o', s', e2, e3, e4, e5⟩ := ih s1 (upd T k ((T k).remove o.size c.val).1)
        { o with size := ((T k).remove o.size c.val).2.2 } (by simp; omega) (by simp; omega) i1
        (by simpa using g5 hs) (by simpa using hin)
      exact ⟨n + 1, o', s', by rw [rounds, e1]; exact e2, e3, e4, e5⟩
    · have hne : ((T k).remove o.size c.val).1 ≠ .nil := by
        intro e; rw [e] at hsz; simp only [sz] at hsz; omega
      refine ⟨0, _, s1, by rw [rounds, e1]; rfl, f1 i hi hin, ?_, callRemove_dangling i1 _ (by simpa using hne) (f1 i hi hin)⟩
      rw [i1.root k, upd_self]
      exact fun e => hne (ptr_none.1 e)

theorem removeAll_ub {ref : Ref α} (k : Nat) : ∀ (n fuel : Nat) (s : St α) (o : Obj) (cnt : Nat) {o' : Obj} {s' : St α},
    rounds n s k o ref = .ok (o', s') → callRemove s' k o' ref = .ub → callRemoveAll fuel s k o ref cnt = .ub := by
  intro n
  induction n with
  | zero =>
    intro fuel s o cnt o' s' h1 h2
    simp only [rounds, Res.ok.injEq, Prod.mk.injEq] at h1
    obtain ⟨rfl, rfl⟩ := h1
    cases fuel with
    | zero => rfl
    | succ fuel => rw [callRemoveAll, h2]; rfl
  | succ n ih =>
    intro fuel s o cnt o' s' h1 h2
    simp only [rounds, Res.bind_eq_ok, Prod.exists] at h1
    obtain ⟨b, o1, s1, e1, e2⟩ := h1
    cases b with
    | false => simp at e2
    | true =>
      cases fuel with
      | zero => rfl
      | succ fuel => rw [callRemoveAll, e1]; exact ih fuel s1 o1 _ e2 h2

/-- A reference into another tree is as good as a copy. -/
theorem removeAll_other (k j i : Nat) (x : α) (hkj : j ≠ k) : ∀ (fuel : Nat) (s1 s2 : St α) (T : Nat → Tree α) (o : Obj) (cnt : Nat),
    Inv s1 T → Inv s2 T → HasVal i x (T j) →
    (callRemoveAll fuel s1 k o (.node i) cnt = .ub ∧ callRemoveAll fuel s2 k o (.val x) cnt = .ub) ∨
      ∃ c o' s1' s2' T', callRemoveAll fuel s1 k o (.node i) cnt = .ok (c, o', s1') ∧
        callRemoveAll fuel s2 k o (.val x) cnt = .ok (c, o', s2') ∧ Inv s1' T' ∧ Inv s2' T' := by
  intro fuel
  induction fuel with
  | zero => intros; exact .inl ⟨rfl, rfl⟩
  | succ fuel ih =>
    intro s1 s2 T o cnt h1 h2 hv
    have hx : deref s1 (.node i) = .ok x := by
      have key : ∀ t : Tree α, Rep s1.mem t → HasVal i x t → deref s1 (.node i) = .ok x := by
        intro t
        induction t with
        | nil => intro _ h; cases h
        | node a p v hh l r ihl ihr =>
          intro hr h
          rcases h with ⟨rfl, rfl⟩ | h | h
          · simp [deref, cell, hr.1]
          · exact ihl hr.2.1 h
          · exact ihr hr.2.2 h
      exact key _ (h1.rep j) hv
    obtain ⟨s1', e1, i1, -⟩ := callRemove_inv h1 k o (ref := .node i) (x := x) fun _ => hx
    obtain ⟨s2', e2, i2, -⟩ := callRemove_inv h2 k o (ref := .val x) (x := x) fun _ => rfl
    simp only [callRemoveAll, e1, e2, Res.bind_ok]
    cases hb : ((T k).remove o.size x).2.1 with
    | false => exact .inr ⟨_, _, _, _, _, rfl, rfl, i1, i2⟩
    | true =>
      simp only [if_true]
      exact ih s1' s2' _ _ _ i1 i2 (by rw [upd_ne _ hkj]; exact hv)

end Verif.Mem
