import Verif.Mem.Model
import Verif.Avl.Lemmas
import Mathlib.Data.List.Nodup
import Mathlib.Data.List.Perm.Subperm

/-! The memory represents a tree: helper lemmas. -/

namespace Verif.Mem
open Avl (Tree)
set_option linter.unusedSectionVars false
variable {α : Type}

def ptr : Tree α → Ptr
  | .nil => none
  | .node i _ _ _ _ _ => some i

def ids : Tree α → List Nat
  | .nil => []
  | .node i _ _ _ l r => i :: (ids l ++ ids r)

/-- The memory holds the nodes of `t`, with the links and stored fields of `t`. -/
def Rep (m : Nat → Option (Cell α)) : Tree α → Prop
  | .nil => True
  | .node i p v h l r => m i = some ⟨p, v, h, ptr l, ptr r⟩ ∧ Rep m l ∧ Rep m r

@[simp] theorem ptr_nil : ptr (.nil : Tree α) = none := rfl
@[simp] theorem ptr_node (i : Nat) (p : Ptr) (v : α) (h : Nat) (l r : Tree α) : ptr (.node i p v h l r) = some i := rfl

theorem Rep.congr {m m' : Nat → Option (Cell α)} {t : Tree α} (h : Rep m t) (hm : ∀ j ∈ ids t, m' j = m j) : Rep m' t := by
  induction t with
  | nil => trivial
  | node i p v hh l r ihl ihr =>
    obtain ⟨h1, h2, h3⟩ := h
    refine ⟨(hm i (by simp [ids])).trans h1, ihl h2 fun j hj => hm j (by simp [ids, hj]),
      ihr h3 fun j hj => hm j (by simp [ids, hj])⟩

theorem Rep.some {m : Nat → Option (Cell α)} {t : Tree α} (h : Rep m t) {j : Nat} (hj : j ∈ ids t) : ∃ c, m j = some c := by
  induction t with
  | nil => cases hj
  | node i p v hh l r ihl ihr =>
    simp only [ids, List.mem_cons, List.mem_append] at hj
    rcases hj with rfl | hj | hj
    · exact ⟨_, h.1⟩
    · exact ihl h.2.1 hj
    · exact ihr h.2.2 hj

/-! ### Reads and writes -/

theorem cell_eq {s : St α} {i : Nat} {c : Cell α} (h : s.mem i = some c) : cell s i = .ok c := by simp [cell, h]

theorem change_eq {s : St α} {i : Nat} {c : Cell α} (h : s.mem i = some c) (f : Cell α → Cell α) :
    change s i f = .ok (s.set i (f c)) := by simp [change, h]

theorem mem_set (s : St α) (i j : Nat) (c : Cell α) : (s.set i c).mem j = if j = i then some c else s.mem j := rfl

@[simp] theorem mem_set_self (s : St α) (i : Nat) (c : Cell α) : (s.set i c).mem i = some c := by simp [St.set]

theorem mem_set_ne (s : St α) {i j : Nat} (h : j ≠ i) (c : Cell α) : (s.set i c).mem j = s.mem j := by simp [St.set, h]

@[simp] theorem roots_set (s : St α) (i : Nat) (c : Cell α) : (s.set i c).roots = s.roots := rfl
@[simp] theorem next_set (s : St α) (i : Nat) (c : Cell α) : (s.set i c).next = s.next := rfl
@[simp] theorem mem_setRoot (s : St α) (k : Nat) (p : Ptr) : (s.setRoot k p).mem = s.mem := rfl
@[simp] theorem next_setRoot (s : St α) (k : Nat) (p : Ptr) : (s.setRoot k p).next = s.next := rfl
@[simp] theorem roots_drop (s : St α) (i : Nat) : (s.drop i).roots = s.roots := rfl
@[simp] theorem next_drop (s : St α) (i : Nat) : (s.drop i).next = s.next := rfl

theorem set_set (s : St α) (i : Nat) (c d : Cell α) : (s.set i c).set i d = s.set i d := by
  simp only [St.set, St.mk.injEq, and_true]
  funext j
  by_cases h : j = i <;> simp [h]

theorem rep_set {s : St α} {i : Nat} {c : Cell α} {t : Tree α} (hi : i ∉ ids t) (h : Rep s.mem t) : Rep (s.set i c).mem t :=
  h.congr fun j hj => mem_set_ne _ (by rintro rfl; exact hi hj) _

theorem height_rep {s : St α} {t : Tree α} (h : Rep s.mem t) : height s (ptr t) = .ok t.height := by
  cases t with
  | nil => rfl
  | node i p v hh l r => simp [height, ptr, cell, h.1, Tree.height]

theorem ptr_none {t : Tree α} : ptr t = none ↔ t = .nil := by cases t <;> simp [ptr]

/-! ### Changes that keep the addresses and the values -/

structure Upd (S : List Nat) (s s' : St α) : Prop where
  roots : s'.roots = s.roots
  next : s'.next = s.next
  frame : ∀ j, j ∉ S → s'.mem j = s.mem j
  vals : ∀ j c, s.mem j = some c → ∃ c', s'.mem j = some c' ∧ c'.val = c.val

theorem Upd.refl (S : List Nat) (s : St α) : Upd S s s := ⟨rfl, rfl, fun _ _ => rfl, fun _ c h => ⟨c, h, rfl⟩⟩

theorem Upd.trans {S : List Nat} {s s' s'' : St α} (h : Upd S s s') (h' : Upd S s' s'') : Upd S s s'' where
  roots := h'.roots.trans h.roots
  next := h'.next.trans h.next
  frame := fun j hj => (h'.frame j hj).trans (h.frame j hj)
  vals := fun j c hj => by
    obtain ⟨c', h1, h2⟩ := h.vals j c hj
    obtain ⟨c'', h3, h4⟩ := h'.vals j c' h1
    exact ⟨c'', h3, h4.trans h2⟩

theorem Upd.mono {S S' : List Nat} {s s' : St α} (h : Upd S s s') (hS : ∀ j ∈ S, j ∈ S') : Upd S' s s' :=
  ⟨h.roots, h.next, fun j hj => h.frame j fun hj' => hj (hS j hj'), h.vals⟩

theorem Upd.set {S : List Nat} {s : St α} {i : Nat} {c d : Cell α} (h : s.mem i = some c) (hv : d.val = c.val) (hi : i ∈ S) :
    Upd S s (s.set i d) where
  roots := rfl
  next := rfl
  frame := fun j hj => mem_set_ne _ (by rintro rfl; exact hj hi) _
  vals := fun j c' hj => by
    by_cases hji : j = i
    · subst hji
      rw [h] at hj
      cases hj
      exact ⟨d, by simp, hv⟩
    · exact ⟨c', by rw [mem_set_ne _ hji, hj], rfl⟩

theorem deref_upd {S : List Nat} {s s' : St α} (h : Upd S s s') {ref : Ref α} {x : α} (hx : deref s ref = .ok x) :
    deref s' ref = .ok x := by
  cases ref with
  | val y => exact hx
  | node i =>
    simp only [deref, cell] at hx ⊢
    cases hc : s.mem i with
    | none => simp [hc] at hx
    | some c =>
      simp [hc] at hx
      obtain ⟨c', h1, h2⟩ := h.vals i c hc
      simp [h1, h2, hx]

/-! ### Rotations -/

theorem ids_rotateRight (t : Tree α) : (ids t.rotateRight).Perm (ids t) := by
  unfold Tree.rotateRight
  split
  · rename_i i p v h i2 p2 v2 h2 l2 r2 r
    simp only [ids]
    rw [List.perm_iff_count]
    intro a
    simp only [List.count_cons, List.count_append]
    omega
  · rfl

theorem ids_rotateLeft (t : Tree α) : (ids t.rotateLeft).Perm (ids t) := by
  unfold Tree.rotateLeft
  split
  · rename_i i p v h l i2 p2 v2 h2 l2 r2
    simp only [ids]
    rw [List.perm_iff_count]
    intro a
    simp only [List.count_cons, List.count_append]
    omega
  · rfl

theorem rotateRight_rep {s : St α} {t : Tree α} (hr : Rep s.mem t) (hn : (ids t).Nodup) :
    ∃ s', rotateRight s (ptr t) = .ok (ptr t.rotateRight, s') ∧ Rep s'.mem t.rotateRight ∧ Upd (ids t) s s' := by
  cases t with
  | nil => exact ⟨s, rfl, trivial, Upd.refl _ _⟩
  | node o p v h l r =>
    cases l with
    | nil => exact ⟨s, by simp [rotateRight, ptr, cell, hr.1, Tree.rotateRight], hr, Upd.refl _ _⟩
    | node hd p2 v2 h2 l2 r2 =>
      obtain ⟨ho, ⟨hh, hl2, hr2⟩, hrr⟩ := hr
      simp only [ids, List.cons_append, List.nodup_cons, List.mem_cons, List.mem_append, not_or, List.append_assoc] at hn
      obtain ⟨⟨hne, ho2, ho3, ho4⟩, ⟨hh2, hh3, hh4⟩, -⟩ := hn
      have hne' : hd ≠ o := fun h => hne h.symm
      refine ⟨(s.set o ⟨some hd, v, max r2.height r.height + 1, ptr r2, ptr r⟩).set hd
        ⟨p, v2, max l2.height (max r2.height r.height + 1) + 1, ptr l2, some o⟩, ?_, ?_, ?_⟩
      · simp only [rotateRight, ptr_node, cell_eq ho, Res.bind_ok, cell_eq hh, change_eq ho]
        have e1 : ∀ c, (s.set o c).mem hd = some ⟨p2, v2, h2, ptr l2, ptr r2⟩ := fun c => by rw [mem_set_ne _ hne', hh]
        simp only [change_eq (e1 _), Res.bind_ok]
        have e2 : ∀ c d, ((s.set o c).set hd d).mem o = some c := fun c d => by rw [mem_set_ne _ hne, mem_set_self]
        simp only [cell_eq (e2 _ _), Res.bind_ok, change_eq (mem_set_self _ _ _), set_set, change_eq (e2 _ _),
          cell_eq (mem_set_self _ _ _)]
        have swap : ∀ a b c, ((s.set o a).set hd b).set o c = (s.set o c).set hd b := fun a b c => by
          simp only [St.set, St.mk.injEq, and_true]
          funext j
          by_cases h1 : j = o
          · simp [h1, hne]
          · simp [h1]
        have Rr2 : ∀ a b, Rep ((s.set o a).set hd b).mem r2 := fun a b => rep_set hh3 (rep_set ho3 hr2)
        have Rr : ∀ a b, Rep ((s.set o a).set hd b).mem r := fun a b => rep_set hh4 (rep_set ho4 hrr)
        have Rl2 : ∀ a b, Rep ((s.set o a).set hd b).mem l2 := fun a b => rep_set hh2 (rep_set ho2 hl2)
        simp only [swap, height_rep (Rr2 _ _), height_rep (Rr _ _), Res.bind_ok,
          cell_eq (mem_set_self _ _ _), height_rep (Rl2 _ _), change_eq (mem_set_self _ _ _), set_set]
        rfl
      · refine ⟨mem_set_self _ _ _, rep_set hh2 (rep_set ho2 hl2), ?_, rep_set hh3 (rep_set ho3 hr2), rep_set hh4 (rep_set ho4 hrr)⟩
        rw [mem_set_ne _ hne, mem_set_self]
      · refine Upd.trans (Upd.set (i := o) ho ?_ ?_) (Upd.set (i := hd) (c := ⟨p2, v2, h2, ptr l2, ptr r2⟩) ?_ ?_ ?_)
        · rfl
        · simp [ids]
        · rw [mem_set_ne _ hne', hh]
        · rfl
        · simp [ids]

theorem rotateLeft_rep {s : St α} {t : Tree α} (hr : Rep s.mem t) (hn : (ids t).Nodup) :
    ∃ s', rotateLeft s (ptr t) = .ok (ptr t.rotateLeft, s') ∧ Rep s'.mem t.rotateLeft ∧ Upd (ids t) s s' := by
  cases t with
  | nil => exact ⟨s, rfl, trivial, Upd.refl _ _⟩
  | node o p v h l r =>
    cases r with
    | nil => exact ⟨s, by simp [rotateLeft, ptr, cell, hr.1, Tree.rotateLeft], hr, Upd.refl _ _⟩
    | node hd p2 v2 h2 l2 r2 =>
      obtain ⟨ho, hll, hh, hl2, hr2⟩ := hr
      simp only [ids, List.nodup_cons, List.mem_cons, List.mem_append, not_or, List.nodup_append] at hn
      obtain ⟨⟨ho1, hne, ho2, ho3⟩, -, ⟨⟨hh2, hh3⟩, -⟩, hdis⟩ := hn
      have hh1 : hd ∉ ids l := fun hm => hdis _ hm _ (Or.inl rfl) rfl
      have hne' : hd ≠ o := fun h => hne h.symm
      refine ⟨(s.set o ⟨some hd, v, max l.height l2.height + 1, ptr l, ptr l2⟩).set hd
        ⟨p, v2, max r2.height (max l.height l2.height + 1) + 1, some o, ptr r2⟩, ?_, ?_, ?_⟩
      · simp only [rotateLeft, ptr_node, cell_eq ho, Res.bind_ok, cell_eq hh, change_eq ho]
        have e1 : ∀ c, (s.set o c).mem hd = some ⟨p2, v2, h2, ptr l2, ptr r2⟩ := fun c => by rw [mem_set_ne _ hne', hh]
        simp only [change_eq (e1 _), Res.bind_ok]
        have e2 : ∀ c d, ((s.set o c).set hd d).mem o = some c := fun c d => by rw [mem_set_ne _ hne, mem_set_self]
        simp only [cell_eq (e2 _ _), Res.bind_ok, change_eq (mem_set_self _ _ _), set_set, change_eq (e2 _ _),
          cell_eq (mem_set_self _ _ _)]
        have swap : ∀ a b c, ((s.set o a).set hd b).set o c = (s.set o c).set hd b := fun a b c => by
          simp only [St.set, St.mk.injEq, and_true]
          funext j
          by_cases h1 : j = o
          · simp [h1, hne]
          · simp [h1]
        have Rr2 : ∀ a b, Rep ((s.set o a).set hd b).mem r2 := fun a b => rep_set hh3 (rep_set ho3 hr2)
        have Rr : ∀ a b, Rep ((s.set o a).set hd b).mem l := fun a b => rep_set hh1 (rep_set ho1 hll)
        have Rl2 : ∀ a b, Rep ((s.set o a).set hd b).mem l2 := fun a b => rep_set hh2 (rep_set ho2 hl2)
        simp only [swap, height_rep (Rr2 _ _), height_rep (Rr _ _), Res.bind_ok,
          cell_eq (mem_set_self _ _ _), height_rep (Rl2 _ _), change_eq (mem_set_self _ _ _), set_set]
        rfl
      · refine ⟨mem_set_self _ _ _, ⟨?_, rep_set hh1 (rep_set ho1 hll), rep_set hh2 (rep_set ho2 hl2)⟩, rep_set hh3 (rep_set ho3 hr2)⟩
        rw [mem_set_ne _ hne, mem_set_self]
      · refine Upd.trans (Upd.set (i := o) ho ?_ ?_) (Upd.set (i := hd) (c := ⟨p2, v2, h2, ptr l2, ptr r2⟩) ?_ ?_ ?_)
        · rfl
        · simp [ids]
        · rw [mem_set_ne _ hne', hh]
        · rfl
        · simp [ids]

theorem nodup_node {i : Nat} {p : Ptr} {v : α} {h : Nat} {l r : Tree α} :
    (ids (.node i p v h l r)).Nodup ↔
      i ∉ ids l ∧ i ∉ ids r ∧ (ids l).Nodup ∧ (ids r).Nodup ∧ (∀ j, j ∈ ids l → j ∉ ids r) := by
  simp only [ids, List.nodup_cons, List.mem_append, not_or, List.nodup_append]
  constructor
  · rintro ⟨⟨h1, h2⟩, h3, h4, h5⟩
    exact ⟨h1, h2, h3, h4, fun j hj hj' => h5 j hj j hj' rfl⟩
  · rintro ⟨h1, h2, h3, h4, h5⟩
    exact ⟨⟨h1, h2⟩, h3, h4, fun a ha b hb hab => h5 a ha (hab ▸ hb)⟩

theorem ids_doubleRotateLeft (t : Tree α) : (ids t.doubleRotateLeft).Perm (ids t) := by
  cases t with
  | nil => rfl
  | node i p v h l r =>
    exact (ids_rotateLeft _).trans (((ids_rotateRight r).append_left (ids l)).cons i)

theorem ids_doubleRotateRight (t : Tree α) : (ids t.doubleRotateRight).Perm (ids t) := by
  cases t with
  | nil => rfl
  | node i p v h l r =>
    exact (ids_rotateRight _).trans (((ids_rotateLeft l).append_right (ids r)).cons i)

theorem doubleRotateLeft_rep {s : St α} {i : Nat} {p : Ptr} {v : α} {h : Nat} {l r : Tree α}
    (hr : Rep s.mem (.node i p v h l r)) (hn : (ids (.node i p v h l r)).Nodup) :
    ∃ s', doubleRotateLeft s i = .ok (ptr (Tree.doubleRotateLeft (.node i p v h l r)), s') ∧
      Rep s'.mem (Tree.doubleRotateLeft (.node i p v h l r)) ∧ Upd (ids (.node i p v h l r)) s s' := by
  obtain ⟨hi, hl, hrr⟩ := hr
  obtain ⟨n1, n2, n3, n4, n5⟩ := nodup_node.1 hn
  obtain ⟨s1, e1, r1, u1⟩ := rotateRight_rep hrr n4
  have hi1 : s1.mem i = some ⟨p, v, h, ptr l, ptr r⟩ := (u1.frame i n2).trans hi
  have n2' : i ∉ ids r.rotateRight := fun hm => n2 ((ids_rotateRight r).mem_iff.1 hm)
  have hn' : (ids (.node i p v h l r.rotateRight)).Nodup :=
    nodup_node.2 ⟨n1, n2', n3, (ids_rotateRight r).nodup_iff.2 n4, fun j hj hj' => n5 j hj ((ids_rotateRight r).mem_iff.1 hj')⟩
  have hr2 : Rep (s1.set i ⟨p, v, h, ptr l, ptr r.rotateRight⟩).mem (.node i p v h l r.rotateRight) :=
    ⟨mem_set_self _ _ _, rep_set n1 (hl.congr fun j hj => u1.frame j (n5 j hj)), rep_set n2' r1⟩
  obtain ⟨s2, e2, r2, u2⟩ := rotateLeft_rep hr2 hn'
  refine ⟨s2, ?_, r2, ?_⟩
  · simp only [doubleRotateLeft, cell_eq hi, Res.bind_ok, e1, change_eq hi1]
    exact e2
  · refine (u1.mono ?_).trans (Upd.trans (Upd.set hi1 ?_ ?_) (u2.mono ?_))
    · intro j hj; simp [ids, hj]
    · rfl
    · simp [ids]
    · intro j hj
      exact (((ids_rotateRight r).append_left (ids l)).cons i).mem_iff.1 hj

theorem doubleRotateRight_rep {s : St α} {i : Nat} {p : Ptr} {v : α} {h : Nat} {l r : Tree α}
    (hr : Rep s.mem (.node i p v h l r)) (hn : (ids (.node i p v h l r)).Nodup) :
    ∃ s', doubleRotateRight s i = .ok (ptr (Tree.doubleRotateRight (.node i p v h l r)), s') ∧
      Rep s'.mem (Tree.doubleRotateRight (.node i p v h l r)) ∧ Upd (ids (.node i p v h l r)) s s' := by
  obtain ⟨hi, hl, hrr⟩ := hr
  obtain ⟨n1, n2, n3, n4, n5⟩ := nodup_node.1 hn
  obtain ⟨s1, e1, r1, u1⟩ := rotateLeft_rep hl n3
  have hi1 : s1.mem i = some ⟨p, v, h, ptr l, ptr r⟩ := (u1.frame i n1).trans hi
  have n1' : i ∉ ids l.rotateLeft := fun hm => n1 ((ids_rotateLeft l).mem_iff.1 hm)
  have hn' : (ids (.node i p v h l.rotateLeft r)).Nodup :=
    nodup_node.2 ⟨n1', n2, (ids_rotateLeft l).nodup_iff.2 n3, n4, fun j hj hj' => n5 j ((ids_rotateLeft l).mem_iff.1 hj) hj'⟩
  have hr2 : Rep (s1.set i ⟨p, v, h, ptr l.rotateLeft, ptr r⟩).mem (.node i p v h l.rotateLeft r) :=
    ⟨mem_set_self _ _ _, rep_set n1' r1, rep_set n2 (hrr.congr fun j hj => u1.frame j fun hj' => n5 j hj' hj)⟩
  obtain ⟨s2, e2, r2, u2⟩ := rotateRight_rep hr2 hn'
  refine ⟨s2, ?_, r2, ?_⟩
  · simp only [doubleRotateRight, cell_eq hi, Res.bind_ok, e1, change_eq hi1]
    exact e2
  · refine (u1.mono ?_).trans (Upd.trans (Upd.set hi1 ?_ ?_) (u2.mono ?_))
    · intro j hj; simp [ids, hj]
    · rfl
    · simp [ids]
    · intro j hj
      exact (((ids_rotateLeft l).append_right (ids r)).cons i).mem_iff.1 hj

theorem ids_rotateOnRemove (t : Tree α) : (ids t.rotateOnRemove).Perm (ids t) := by
  unfold Tree.rotateOnRemove
  split
  · rfl
  · simp only
    split
    · split
      · split
        · exact ids_rotateRight _
        · exact ids_doubleRotateRight _
      · rfl
    · split
      · split
        · split
          · exact ids_rotateLeft _
          · exact ids_doubleRotateLeft _
        · rfl
      · rfl

/-- The height update both rebalancing functions start with. -/
theorem fix_height {s : St α} {i : Nat} {p : Ptr} {v : α} {h : Nat} {l r : Tree α}
    (hr : Rep s.mem (.node i p v h l r)) (hn : (ids (.node i p v h l r)).Nodup) (h' : Nat) :
    Rep (s.set i ⟨p, v, h', ptr l, ptr r⟩).mem (.node i p v h' l r) ∧
      Upd (ids (.node i p v h l r)) s (s.set i ⟨p, v, h', ptr l, ptr r⟩) := by
  obtain ⟨hi, hl, hrr⟩ := hr
  obtain ⟨n1, n2, n3, n4, n5⟩ := nodup_node.1 hn
  refine ⟨⟨mem_set_self _ _ _, rep_set n1 hl, rep_set n2 hrr⟩, Upd.set hi ?_ ?_⟩
  · rfl
  · simp [ids]

theorem rotateOnRemove_rep {s : St α} {i : Nat} {p : Ptr} {v : α} {h : Nat} {l r : Tree α}
    (hr : Rep s.mem (.node i p v h l r)) (hn : (ids (.node i p v h l r)).Nodup) :
    ∃ s', rotateOnRemove s i = .ok (ptr (Tree.rotateOnRemove (.node i p v h l r)), s') ∧
      Rep s'.mem (Tree.rotateOnRemove (.node i p v h l r)) ∧ Upd (ids (.node i p v h l r)) s s' := by
  obtain ⟨hr1, u1⟩ := fix_height hr hn (max l.height r.height + 1)
  have hn1 : (ids (.node i p v (max l.height r.height + 1) l r)).Nodup := hn
  simp only [rotateOnRemove, cell_eq hr.1, Res.bind_ok, height_rep hr.2.1, height_rep hr.2.2, change_eq hr.1, cell_eq hr1.1,
    height_rep hr1.2.1, height_rep hr1.2.2]
  generalize s.set i ⟨p, v, max l.height r.height + 1, ptr l, ptr r⟩ = s1 at hr1 u1 ⊢
  unfold Tree.rotateOnRemove
  simp only
  by_cases c1 : l.height = r.height + 2
  · rw [if_pos c1, if_pos c1]
    cases l with
    | nil => simp [Tree.height] at c1
    | node li lp lv lh ll lr =>
      have hl := hr1.2.1
      simp only [ptr_node, cell_eq hl.1, Res.bind_ok, height_rep hl.2.1, height_rep hl.2.2]
      by_cases c2 : ll.height = lr.height + 1
      · rw [if_pos c2, if_pos c2]
        obtain ⟨s2, e2, r2, u2⟩ := rotateRight_rep hr1 hn1
        exact ⟨s2, e2, r2, u1.trans u2⟩
      · rw [if_neg c2, if_neg c2]
        obtain ⟨s2, e2, r2, u2⟩ := doubleRotateRight_rep hr1 hn1
        exact ⟨s2, e2, r2, u1.trans u2⟩
  · rw [if_neg c1, if_neg c1]
    by_cases c3 : r.height = l.height + 2
    · rw [if_pos c3, if_pos c3]
      cases r with
      | nil => simp [Tree.height] at c3
      | node ri rp rv rh rl rr =>
        have hrr := hr1.2.2
        simp only [ptr_node, cell_eq hrr.1, Res.bind_ok, height_rep hrr.2.1, height_rep hrr.2.2]
        by_cases c2 : rr.height = rl.height + 1
        · rw [if_pos c2, if_pos c2]
          obtain ⟨s2, e2, r2, u2⟩ := rotateLeft_rep hr1 hn1
          exact ⟨s2, e2, r2, u1.trans u2⟩
        · rw [if_neg c2, if_neg c2]
          obtain ⟨s2, e2, r2, u2⟩ := doubleRotateLeft_rep hr1 hn1
          exact ⟨s2, e2, r2, u1.trans u2⟩
    · rw [if_neg c3, if_neg c3]
      exact ⟨s1, rfl, hr1, u1⟩

variable [LinearOrder α]

theorem ids_rotateIfNeeded (x : α) (t : Tree α) : (ids (t.rotateIfNeeded x)).Perm (ids t) := by
  unfold Tree.rotateIfNeeded
  split
  · rfl
  · simp only
    split
    · split
      · split
        · exact ids_rotateRight _
        · exact ids_doubleRotateRight _
      · rfl
    · split
      · split
        · split
          · exact ids_rotateLeft _
          · exact ids_doubleRotateLeft _
        · rfl
      · rfl

theorem rotateIfNeeded_rep {s : St α} {i : Nat} {p : Ptr} {v : α} {h : Nat} {l r : Tree α} {ref : Ref α} {x : α}
    (hr : Rep s.mem (.node i p v h l r)) (hn : (ids (.node i p v h l r)).Nodup) (hx : deref s ref = .ok x) :
    ∃ s', rotateIfNeeded s i ref = .ok (ptr (Tree.rotateIfNeeded x (.node i p v h l r)), s') ∧
      Rep s'.mem (Tree.rotateIfNeeded x (.node i p v h l r)) ∧ Upd (ids (.node i p v h l r)) s s' := by
  obtain ⟨hr1, u1⟩ := fix_height hr hn (max l.height r.height + 1)
  have hn1 : (ids (.node i p v (max l.height r.height + 1) l r)).Nodup := hn
  have hx1 := deref_upd u1 hx
  simp only [rotateIfNeeded, cell_eq hr.1, Res.bind_ok, height_rep hr.2.1, height_rep hr.2.2, change_eq hr.1, cell_eq hr1.1,
    height_rep hr1.2.1, height_rep hr1.2.2]
  generalize s.set i ⟨p, v, max l.height r.height + 1, ptr l, ptr r⟩ = s1 at hr1 u1 hx1 ⊢
  unfold Tree.rotateIfNeeded
  simp only
  by_cases c1 : l.height = r.height + 2
  · rw [if_pos c1, if_pos c1]
    cases l with
    | nil => simp [Tree.height] at c1
    | node li lp lv lh ll lr =>
      have hl := hr1.2.1
      simp only [ptr_node, cell_eq hl.1, Res.bind_ok, hx1]
      by_cases c2 : x < lv
      · rw [if_pos c2, if_pos c2]
        obtain ⟨s2, e2, r2, u2⟩ := rotateRight_rep hr1 hn1
        exact ⟨s2, e2, r2, u1.trans u2⟩
      · rw [if_neg c2, if_neg c2]
        obtain ⟨s2, e2, r2, u2⟩ := doubleRotateRight_rep hr1 hn1
        exact ⟨s2, e2, r2, u1.trans u2⟩
  · rw [if_neg c1, if_neg c1]
    by_cases c3 : r.height = l.height + 2
    · rw [if_pos c3, if_pos c3]
      cases r with
      | nil => simp [Tree.height] at c3
      | node ri rp rv rh rl rr =>
        have hrr := hr1.2.2
        simp only [ptr_node, cell_eq hrr.1, Res.bind_ok, hx1]
        by_cases c2 : rv < x
        · rw [if_pos c2, if_pos c2]
          obtain ⟨s2, e2, r2, u2⟩ := rotateLeft_rep hr1 hn1
          exact ⟨s2, e2, r2, u1.trans u2⟩
        · rw [if_neg c2, if_neg c2]
          obtain ⟨s2, e2, r2, u2⟩ := doubleRotateLeft_rep hr1 hn1
          exact ⟨s2, e2, r2, u1.trans u2⟩
    · rw [if_neg c3, if_neg c3]
      exact ⟨s1, rfl, hr1, u1⟩

end Verif.Mem
