import Verif.Mem.Props

/-! How long a reference to a value in a tree stays good: `get` (tree.h:194-206) returns a reference to the value in the node, which
is reached from `root`.  The model is `Verif.Mem.Model`. -/

namespace Verif.Mem
open Avl (Tree SSorted)
open Avl.Spec (inorder MSet)
open Spec
set_option linter.unusedSectionVars false
variable {α : Type}

/-! ### Specification -/

/-- A reference to the value in node `i` reads `v`. -/
def Shown (s : St α) (i : Nat) (v : α) : Prop := ∃ c, s.mem i = some c ∧ c.val = v

/-- The call removes the value `v`, or one of several copies of it. -/
def Drops (v : α) : Avl.Op α → Prop
  | .remove x => v = x
  | .removeAll x => v = x
  | .clear => True
  | _ => False

/-- `w` is the next value after `x`. -/
def Next [LinearOrder α] (xs : List α) (x w : α) : Prop := w ∈ xs ∧ x < w ∧ ∀ y ∈ xs, x < y → w ≤ y

/-- The node has two children. -/
def Inner (s : St α) (i : Nat) : Prop := ∃ c, s.mem i = some c ∧ c.left ≠ none ∧ c.right ≠ none

variable [LinearOrder α]

/-! ### The trees -/

/-- Node `i` of the tree has two children. -/
def Kids (i : Nat) : Tree α → Prop
  | .nil => False
  | .node j _ _ _ l r => (i = j ∧ l ≠ .nil ∧ r ≠ .nil) ∨ Kids i l ∨ Kids i r

theorem Kids.ids {i : Nat} {t : Tree α} (h : Kids i t) : i ∈ ids t := by
  induction t with
  | nil => cases h
  | node j p v hh l r ihl ihr =>
    rcases h with ⟨rfl, -⟩ | h | h
    · simp [Mem.ids]
    · simp [Mem.ids, ihl h]
    · simp [Mem.ids, ihr h]

theorem kids_rep {s : St α} {t : Tree α} (h : Rep s.mem t) (hn : (ids t).Nodup) {i : Nat} (hi : i ∈ ids t) : Kids i t ↔ Inner s i := by
  induction t with
  | nil => cases hi
  | node j p v hh l r ihl ihr =>
    obtain ⟨n1, n2, n3, n4, n5⟩ := nodup_node.1 hn
    simp only [Mem.ids, List.mem_cons, List.mem_append] at hi
    rcases hi with rfl | hi | hi
    · constructor
      · rintro (⟨-, a, b⟩ | a | a)
        · exact ⟨_, h.1, fun e => a (ptr_none.1 e), fun e => b (ptr_none.1 e)⟩
        · exact absurd a.ids n1
        · exact absurd a.ids n2
      · rintro ⟨c, e, a, b⟩
        rw [h.1] at e
        injection e with e
        subst e
        exact .inl ⟨rfl, fun e => a (by rw [e]; rfl), fun e => b (by rw [e]; rfl)⟩
    · rw [← ihl h.2.1 n3 hi]
      constructor
      · rintro (⟨rfl, -⟩ | a | a)
        · exact absurd hi n1
        · exact a
        · exact absurd a.ids (n5 i hi)
      · exact fun a => .inr (.inl a)
    · rw [← ihr h.2.2 n4 hi]
      constructor
      · rintro (⟨rfl, -⟩ | a | a)
        · exact absurd hi n2
        · exact absurd hi (n5 i a.ids)
        · exact a
      · exact fun a => .inr (.inr a)

theorem hasVal_rotateRight {i : Nat} {x : α} (t : Tree α) : HasVal i x t.rotateRight ↔ HasVal i x t := by
  unfold Tree.rotateRight
  split
  · simp only [HasVal]; tauto
  · rfl

theorem hasVal_rotateLeft {i : Nat} {x : α} (t : Tree α) : HasVal i x t.rotateLeft ↔ HasVal i x t := by
  unfold Tree.rotateLeft
  split
  · simp only [HasVal]; tauto
  · rfl

theorem hasVal_doubleRotateRight {i : Nat} {x : α} (t : Tree α) : HasVal i x t.doubleRotateRight ↔ HasVal i x t := by
  cases t with
  | nil => rfl
  | node => simp only [Tree.doubleRotateRight, hasVal_rotateRight, HasVal, hasVal_rotateLeft]

theorem hasVal_doubleRotateLeft {i : Nat} {x : α} (t : Tree α) : HasVal i x t.doubleRotateLeft ↔ HasVal i x t := by
  cases t with
  | nil => rfl
  | node => simp only [Tree.doubleRotateLeft, hasVal_rotateLeft, HasVal, hasVal_rotateRight]

theorem hasVal_rotateOnRemove {i : Nat} {x : α} (t : Tree α) : HasVal i x t.rotateOnRemove ↔ HasVal i x t := by
  unfold Tree.rotateOnRemove
  split
  · rfl
  · simp only
    split
    · split
      · split
        · exact hasVal_rotateRight _
        · exact hasVal_doubleRotateRight _
      · rfl
    · split
      · split
        · split
          · exact hasVal_rotateLeft _
          · exact hasVal_doubleRotateLeft _
        · rfl
      · rfl

theorem hasVal_setParent {i : Nat} {x : α} (p : Ptr) (t : Tree α) : HasVal i x (t.setParent p) ↔ HasVal i x t := by cases t <;> rfl

theorem mem_inorder {x : α} {t : Tree α} (h : x ∈ inorder t) : ∃ i, HasVal i x t := by
  induction t with
  | nil => cases h
  | node j p v hh l r ihl ihr =>
    simp only [inorder, List.mem_append, List.mem_cons] at h
    rcases h with h | rfl | h
    · obtain ⟨i, hi⟩ := ihl h; exact ⟨i, .inr (.inl hi)⟩
    · exact ⟨j, .inl ⟨rfl, rfl⟩⟩
    · obtain ⟨i, hi⟩ := ihr h; exact ⟨i, .inr (.inr hi)⟩

theorem inorder_ne {t : Tree α} (h : t ≠ .nil) : ∃ y, y ∈ inorder t := by
  cases t with
  | nil => exact absurd rfl h
  | node j p v hh l r => exact ⟨v, by simp [inorder]⟩

/-- A node with two children has a smaller and a larger value. -/
theorem Kids.both {i : Nat} {x : α} {t : Tree α} (hs : SSorted (inorder t)) (hn : (Mem.ids t).Nodup) (hx : HasVal i x t) (h : Kids i t) :
    (∃ y ∈ inorder t, y < x) ∧ ∃ y ∈ inorder t, x < y := by
  induction t with
  | nil => cases h
  | node j p v hh l r ihl ihr =>
    rw [show inorder (.node j p v hh l r) = inorder l ++ v :: inorder r from rfl, Avl.ssorted_iff] at hs
    obtain ⟨hl, hr, hlv, hrv⟩ := hs
    obtain ⟨n1, n2, n3, n4, n5⟩ := nodup_node.1 hn
    simp only [inorder, List.mem_append, List.mem_cons]
    rcases hx with ⟨rfl, rfl⟩ | hx | hx
    · rcases h with ⟨-, a, b⟩ | h | h
      · obtain ⟨y, hy⟩ := inorder_ne a
        obtain ⟨z, hz⟩ := inorder_ne b
        exact ⟨⟨y, .inl hy, hlv y hy⟩, z, .inr (.inr hz), hrv z hz⟩
      · exact absurd h.ids n1
      · exact absurd h.ids n2
    · have h' : Kids i l := by
        rcases h with ⟨rfl, -⟩ | h | h
        · exact absurd hx.ids n1
        · exact h
        · exact absurd h.ids (n5 i hx.ids)
      obtain ⟨⟨y, hy, hy'⟩, z, hz, hz'⟩ := ihl hl n3 hx h'
      exact ⟨⟨y, .inl hy, hy'⟩, z, .inl hz, hz'⟩
    · have h' : Kids i r := by
        rcases h with ⟨rfl, -⟩ | h | h
        · exact absurd hx.ids n2
        · exact absurd hx.ids (n5 i h.ids)
        · exact h
      obtain ⟨⟨y, hy, hy'⟩, z, hz, hz'⟩ := ihr hr n4 hx h'
      exact ⟨⟨y, .inr (.inr hy), hy'⟩, z, .inr (.inr hz), hz'⟩

/-- The node of `x` in the tree has two children. -/
def Two (t : Tree α) (x : α) : Prop := ∃ j, HasVal j x t ∧ Kids j t

/-- What `remove` does to the nodes of a tree without duplicates. -/
theorem remove_nodes (n : Nat) (t : Tree α) : ∀ x, SSorted (inorder t) → (ids t).Nodup → ∀ i w, HasVal i w t →
    (w ≠ x → (Two t x ∧ Next (inorder t) x w → i ∉ ids (t.remove n x).1) ∧
      (¬ (Two t x ∧ Next (inorder t) x w) → HasVal i w (t.remove n x).1)) ∧
    (w = x → (Kids i t → ∃ m, Next (inorder t) x m ∧ HasVal i m (t.remove n x).1) ∧
      (¬ Kids i t → i ∉ ids (t.remove n x).1)) := by
  induction t with
  | nil => intro _ _ _ _ _ h; cases h
  | node j p v hh l r ihl ihr =>
    intro x hs hn i w hw
    rw [show inorder (.node j p v hh l r) = inorder l ++ v :: inorder r from rfl, Avl.ssorted_iff] at hs
    obtain ⟨hl, hr, hlv, hrv⟩ := hs
    obtain ⟨n1, n2, n3, n4, n5⟩ := nodup_node.1 hn
    have hin : ∀ y, y ∈ inorder (.node j p v hh l r) ↔ y ∈ inorder l ∨ y = v ∨ y ∈ inorder r := fun y => by
      simp [inorder]
    unfold Tree.remove
    split
    · next hxv =>
      simp only [mem_rotateOnRemove, hasVal_rotateOnRemove]
      have two : Two (.node j p v hh l r) x ↔ Two l x := by
        constructor
        · rintro ⟨a, ⟨-, rfl⟩ | h1 | h1, h2⟩
          · exact absurd hxv (lt_irrefl _)
          · refine ⟨a, h1, ?_⟩
            rcases h2 with ⟨rfl, -⟩ | h2 | h2
            · exact absurd h1.ids n1
            · exact h2
            · exact absurd h2.ids (n5 a h1.ids)
          · exact absurd (lt_trans hxv (hrv x h1.inorder)) (lt_irrefl _)
        · rintro ⟨a, h1, h2⟩
          exact ⟨a, .inr (.inl h1), .inr (.inl h2)⟩
      have next : ∀ m, m ∈ inorder l → (Next (inorder (.node j p v hh l r)) x m ↔ Next (inorder l) x m) := fun m hm => by
        constructor
        · rintro ⟨-, a, b⟩
          exact ⟨hm, a, fun y hy => b y ((hin y).2 (.inl hy))⟩
        · rintro ⟨-, a, b⟩
          refine ⟨(hin m).2 (.inl hm), a, fun y hy => ?_⟩
          rcases (hin y).1 hy with hy | rfl | hy
          · exact b y hy
          · exact fun _ => (hlv m hm).le
          · exact fun _ => ((hlv m hm).trans (hrv y hy)).le
      -- a larger value in the left subtree
      have none' : v ≤ w → ¬ (Two (.node j p v hh l r) x ∧ Next (inorder (.node j p v hh l r)) x w) := by
        rintro hvw ⟨a, -, -, b⟩
        obtain ⟨y, hy1, hy2⟩ := two.1 a
        obtain ⟨z, hz, hz'⟩ := (hy2.both hl n3 hy1).2
        exact absurd (b z ((hin z).2 (.inl hz)) hz') (not_le.2 ((hlv z hz).trans_le hvw))
      rcases hw with ⟨rfl, rfl⟩ | hw | hw
      · exact ⟨fun _ => ⟨fun h => absurd h (none' le_rfl), fun _ => .inl ⟨rfl, rfl⟩⟩, fun e => absurd e.symm (ne_of_lt hxv)⟩
      · obtain ⟨h1, h2⟩ := ihl x hl n3 i w hw
        have hki : Kids i (.node j p v hh l r) ↔ Kids i l := by
          constructor
          · rintro (⟨rfl, -⟩ | h | h)
            · exact absurd hw.ids n1
            · exact h
            · exact absurd h.ids (n5 i hw.ids)
          · exact fun h => .inr (.inl h)
        have hids : i ∉ ids (l.remove n x).1 → i ∉ ids (.node j p v hh (l.remove n x).1 r) := fun h => by
          simp only [ids, List.mem_cons, List.mem_append, not_or]
          exact ⟨fun e => n1 (e ▸ hw.ids), h, n5 i hw.ids⟩
        rw [two, next w hw.inorder, hki]
        refine ⟨fun e => ⟨fun h => hids ((h1 e).1 h), fun h => .inr (.inl ((h1 e).2 h))⟩, fun e => ⟨fun h => ?_, fun h => hids ((h2 e).2 h)⟩⟩
        obtain ⟨m, a, b⟩ := (h2 e).1 h
        exact ⟨m, (next m a.1).2 a, .inr (.inl b)⟩
      · have hvw := hrv w hw.inorder
        exact ⟨fun _ => ⟨fun h => absurd h (none' hvw.le), fun _ => .inr (.inr hw)⟩, fun e => absurd e.symm (ne_of_lt (hxv.trans hvw))⟩
    · next hxv =>
      split
      · next hvx =>
        simp only [mem_rotateOnRemove, hasVal_rotateOnRemove]
        have two : Two (.node j p v hh l r) x ↔ Two r x := by
          constructor
          · rintro ⟨a, ⟨-, rfl⟩ | h1 | h1, h2⟩
            · exact absurd hvx (lt_irrefl _)
            · exact absurd (lt_trans hvx (hlv x h1.inorder)) (lt_irrefl _)
            · refine ⟨a, h1, ?_⟩
              rcases h2 with ⟨rfl, -⟩ | h2 | h2
              · exact absurd h1.ids n2
              · exact absurd h1.ids (n5 a h2.ids)
              · exact h2
          · rintro ⟨a, h1, h2⟩
            exact ⟨a, .inr (.inr h1), .inr (.inr h2)⟩
        have next : ∀ m, m ∈ inorder r → (Next (inorder (.node j p v hh l r)) x m ↔ Next (inorder r) x m) := fun m hm => by
          constructor
          · rintro ⟨-, a, b⟩
            exact ⟨hm, a, fun y hy => b y ((hin y).2 (.inr (.inr hy)))⟩
          · rintro ⟨-, a, b⟩
            refine ⟨(hin m).2 (.inr (.inr hm)), a, fun y hy hxy => ?_⟩
            rcases (hin y).1 hy with hy | rfl | hy
            · exact absurd (hxy.trans ((hlv y hy).trans hvx)) (lt_irrefl _)
            · exact absurd hxy hxv
            · exact b y hy hxy
        rcases hw with ⟨rfl, rfl⟩ | hw | hw
        · exact ⟨fun _ => ⟨fun h => absurd h.2.2.1 hxv, fun _ => .inl ⟨rfl, rfl⟩⟩, fun e => absurd e (ne_of_lt hvx)⟩
        · have hwv := hlv w hw.inorder
          exact ⟨fun _ => ⟨fun h => absurd (h.2.2.1.trans hwv) hxv, fun _ => .inr (.inl hw)⟩, fun e => absurd e (ne_of_lt (hwv.trans hvx))⟩
        · obtain ⟨h1, h2⟩ := ihr x hr n4 i w hw
          have hki : Kids i (.node j p v hh l r) ↔ Kids i r := by
            constructor
            · rintro (⟨rfl, -⟩ | h | h)
              · exact absurd hw.ids n2
              · exact absurd hw.ids (n5 i h.ids)
              · exact h
            · exact fun h => .inr (.inr h)
          have hids : i ∉ ids (r.remove n x).1 → i ∉ ids (.node j p v hh l (r.remove n x).1) := fun h => by
            simp only [ids, List.mem_cons, List.mem_append, not_or]
            exact ⟨fun e => n2 (e ▸ hw.ids), fun hi => n5 i hi hw.ids, h⟩
          rw [two, next w hw.inorder, hki]
          refine ⟨fun e => ⟨fun h => hids ((h1 e).1 h), fun h => .inr (.inr ((h1 e).2 h))⟩, fun e => ⟨fun h => ?_, fun h => hids ((h2 e).2 h)⟩⟩
          obtain ⟨m, a, b⟩ := (h2 e).1 h
          exact ⟨m, (next m a.1).2 a, .inr (.inr b)⟩
      · next hvx =>
        have hxe : x = v := le_antisymm (not_lt.1 hvx) (not_lt.1 hxv)
        subst hxe
        -- the only node of `x` is the root
        have only : ∀ a, HasVal a x (.node j p x hh l r) → a = j := by
          rintro a (⟨e, -⟩ | h | h)
          · exact e
          · exact absurd (hlv x h.inorder) (lt_irrefl _)
          · exact absurd (hrv x h.inorder) (lt_irrefl _)
        have kj : Kids j (.node j p x hh l r) ↔ l ≠ .nil ∧ r ≠ .nil := by
          constructor
          · rintro (⟨-, h⟩ | h | h)
            · exact h
            · exact absurd h.ids n1
            · exact absurd h.ids n2
          · exact fun h => .inl ⟨rfl, h⟩
        have two : Two (.node j p x hh l r) x ↔ l ≠ .nil ∧ r ≠ .nil := by
          rw [← kj]
          constructor
          · rintro ⟨a, h1, h2⟩
            exact only a h1 ▸ h2
          · exact fun h => ⟨j, .inl ⟨rfl, rfl⟩, h⟩
        have wx : w = x → i = j := fun e => only i (e ▸ hw)
        split
        · refine ⟨fun e => ?_, fun e => ⟨fun h => ?_, fun _ => by simp [ids]⟩⟩
          · rcases hw with ⟨-, rfl⟩ | hw | hw
            · exact absurd rfl e
            · cases hw
            · cases hw
          · rw [wx e] at h
            exact absurd rfl (kj.1 h).1
        · simp only [mem_rotateOnRemove, ids_setParent, hasVal_rotateOnRemove, hasVal_setParent]
          refine ⟨fun e => ⟨fun h => absurd rfl (two.1 h.1).2, fun _ => ?_⟩, fun e => ⟨fun h => ?_, fun _ => ?_⟩⟩
          · rcases hw with ⟨-, rfl⟩ | hw | hw
            · exact absurd rfl e
            · exact hw
            · cases hw
          · rw [wx e] at h
            exact absurd rfl (kj.1 h).2
          · rw [wx e]; exact n1
        · simp only [mem_rotateOnRemove, ids_setParent, hasVal_rotateOnRemove, hasVal_setParent]
          refine ⟨fun e => ⟨fun h => absurd rfl (two.1 h.1).1, fun _ => ?_⟩, fun e => ⟨fun h => ?_, fun _ => ?_⟩⟩
          · rcases hw with ⟨-, rfl⟩ | hw | hw
            · exact absurd rfl e
            · cases hw
            · exact hw
          · rw [wx e] at h
            exact absurd rfl (kj.1 h).1
          · rw [wx e]; exact n2
        · rename_i li lp lv lh ll lr ri rp rv rh rl rr
          generalize hL : Tree.node li lp lv lh ll lr = l at *
          generalize hR : Tree.node ri rp rv rh rl rr = r at *
          have hlne : l ≠ .nil := by rw [← hL]; simp
          have hrne : r ≠ .nil := by rw [← hR]; simp
          cases hm : r.leftmost with
          | none =>
            rw [Avl.leftmost_eq, List.head?_eq_none_iff] at hm
            obtain ⟨y, hy⟩ := inorder_ne hrne
            rw [hm] at hy
            cases hy
          | some m =>
            simp only [mem_rotateOnRemove, hasVal_rotateOnRemove]
            rw [Avl.leftmost_eq] at hm
            have hmr : m ∈ inorder r := List.mem_of_mem_head? hm
            have hmin : ∀ y ∈ inorder r, m ≤ y := fun y hy => by
              cases hc : inorder r with
              | nil => rw [hc] at hy; cases hy
              | cons a as =>
                rw [hc] at hm hy hr
                simp only [List.head?_cons, Option.some.injEq] at hm
                subst hm
                rcases List.mem_cons.1 hy with rfl | hy
                · exact le_rfl
                · exact ((List.pairwise_cons.1 hr).1 y hy).le
            have hnext : Next (inorder (.node j p x hh l r)) x m := by
              refine ⟨(hin m).2 (.inr (.inr hmr)), hrv m hmr, fun y hy hxy => ?_⟩
              rcases (hin y).1 hy with hy | rfl | hy
              · exact absurd (hxy.trans (hlv y hy)) (lt_irrefl _)
              · exact absurd hxy (lt_irrefl _)
              · exact hmin y hy
            have no2 : ∀ a, HasVal a m r → ¬ Kids a r := fun a h1 h2 => by
              obtain ⟨y, hy, hy'⟩ := (h2.both hr n4 h1).1
              exact absurd (hmin y hy) (not_le.2 hy')
            refine ⟨fun e => ?_, fun e => ⟨fun _ => ⟨m, hnext, .inl ⟨wx e, rfl⟩⟩, fun h => absurd (wx e ▸ kj.2 ⟨hlne, hrne⟩) h⟩⟩
            rcases hw with ⟨-, rfl⟩ | hw | hw
            · exact absurd rfl e
            · have hwx := hlv w hw.inorder
              exact ⟨fun h => absurd (h.2.2.1.trans hwx) (lt_irrefl _), fun _ => .inr (.inl hw)⟩
            · obtain ⟨h1, h2⟩ := ihr m hr n4 i w hw
              have hids : i ∉ ids (r.remove n m).1 → i ∉ ids (.node j p m hh l (r.remove n m).1) := fun h => by
                simp only [ids, List.mem_cons, List.mem_append, not_or]
                exact ⟨fun e => n2 (e ▸ hw.ids), fun hi => n5 i hi hw.ids, h⟩
              by_cases hwm : w = m
              · subst hwm
                exact ⟨fun _ => hids ((h2 rfl).2 (no2 i hw)), fun h => absurd ⟨two.2 ⟨hlne, hrne⟩, hnext⟩ h⟩
              · refine ⟨fun h => absurd (le_antisymm (h.2.2.2 m hnext.1 hnext.2.1) (hmin w hw.inorder)) hwm, fun _ => .inr (.inr ((h1 hwm).2 ?_))⟩
                rintro ⟨⟨a, a1, a2⟩, -⟩
                exact no2 a a1 a2

/-! ### C205 -/

/-- The full claim of C205: a reference to a value in a tree reads that value as long as no call removes the value from the
tree. -/
def C205_statement (α : Type) [LinearOrder α] : Prop :=
  ∀ (dflt : α) (ops : List (WOp α)) (outs : List (Option Avl.Out)) (w : World α), World.init.run dflt ops = .ok (outs, w) →
    ∀ (k j i : Nat) (v : α) (op : Avl.Op α), InTree w.s j i → Shown w.s i v → (j = k → ¬ Drops v op) →
      ∀ out o s', step w.s k (w.obj k) op = .ok (out, o, s') → Shown s' i v

theorem shown_unique {s : St α} {i : Nat} {v w : α} (h : Shown s i v) (h' : Shown s i w) : v = w := by
  obtain ⟨c, h1, rfl⟩ := h
  obtain ⟨c', h2, rfl⟩ := h'
  rw [h1] at h2
  injection h2 with h2
  rw [h2]

theorem shown_hasVal {m : St α} {t : Tree α} (h : Rep m.mem t) {i : Nat} {v : α} (hv : HasVal i v t) : Shown m i v := by
  induction t with
  | nil => cases hv
  | node j p x hh l r ihl ihr =>
    rcases hv with ⟨rfl, rfl⟩ | hv | hv
    · exact ⟨_, h.1, rfl⟩
    · exact ihl h.2.1 hv
    · exact ihr h.2.2 hv

/-- C205, the part that holds for the calls that remove nothing: after `insert` (of a copy or a reference), and after enabling
or disabling duplicates, every reference to a value in any tree reads the same value, whatever the rotations did.  Missing:
`remove` and `remove_all` of another value, where `C205_remove_exact` says which reference is lost. -/
theorem C205_insert_partial {dflt : α} {ops : List (WOp α)} {outs : List (Option Avl.Out)} {w : World α}
    (h : World.init.run dflt ops = .ok (outs, w)) (k i : Nat) (v : α) (hi : Shown w.s i v) :
    (∀ ref b o s', callInsert w.s k (w.obj k) ref = .ok (b, o, s') → Shown s' i v) ∧
    (∀ x out o s', step w.s k (w.obj k) (.insert x) = .ok (out, o, s') → Shown s' i v) ∧
    (∀ out o s', step w.s k (w.obj k) .enableDuplicates = .ok (out, o, s') → Shown s' i v) ∧
    (∀ out o s', step w.s k (w.obj k) .disableDuplicates = .ok (out, o, s') → Shown s' i v) := by
  obtain ⟨T, hT⟩ := world_inv' h
  obtain ⟨c, hc, rfl⟩ := hi
  have ins : ∀ ref b o s', callInsert w.s k (w.obj k) ref = .ok (b, o, s') → Shown s' i c.val := fun ref b o s' e => by
    have hd : ∃ x, deref w.s ref = .ok x := by
      cases ref with
      | val x => exact ⟨x, rfl⟩
      | node j =>
        cases hj : w.s.mem j with
        | some d => exact ⟨d.val, by simp [deref, cell, hj]⟩
        | none =>
          exfalso
          have hd : deref w.s (.node j) = .ub := by simp only [deref, cell, hj]; rfl
          have hk := hT.rep k
          have hroot := hT.root k
          generalize T k = t at *
          cases t with
          | nil =>
            simp only [callInsert, St.fuel, insert, readSlot, hroot, ptr, Res.bind_ok, addRoot, hd, Res.bind_ub] at e
            cases e
          | node a p x hh l r =>
            simp only [callInsert, St.fuel, insert, readSlot, hroot, ptr, Res.bind_ok, cell_eq hk.1, hd, Res.bind_ub] at e
            cases e
    obtain ⟨x, hx⟩ := hd
    obtain ⟨s1, e1, -, k1, -⟩ := callInsert_inv hT k (w.obj k) hx
    rw [e1] at e
    simp only [Res.ok.injEq, Prod.mk.injEq] at e
    rw [← e.2.2]
    exact k1 i c hc
  refine ⟨ins, fun x out o s' e => ?_, fun out o s' e => ?_, fun out o s' e => ?_⟩
  · obtain ⟨⟨b, o1, s1⟩, e1, e2⟩ := Res.bind_eq_ok.1 e
    simp only [Res.ok.injEq, Prod.mk.injEq] at e2
    rw [← e2.2.2]
    exact ins _ _ _ _ e1
  · simp only [step, Res.ok.injEq, Prod.mk.injEq] at e
    rw [← e.2.2]
    exact ⟨c, hc, rfl⟩
  · simp only [step, Res.ok.injEq, Prod.mk.injEq] at e
    rw [← e.2.2]
    exact ⟨c, hc, rfl⟩

/-- C205, the part that holds for other trees: no call on a tree touches the nodes of another tree, not even `clear`. -/
theorem C205_other_partial {dflt : α} {ops : List (WOp α)} {outs : List (Option Avl.Out)} {w : World α}
    (h : World.init.run dflt ops = .ok (outs, w)) (k j i : Nat) (hkj : j ≠ k) (v : α) (op : Avl.Op α) (hi : InTree w.s j i)
    (hv : Shown w.s i v) : ∃ out o s', step w.s k (w.obj k) op = .ok (out, o, s') ∧ InTree s' j i ∧ Shown s' i v := by
  obtain ⟨T, hT⟩ := world_inv' h
  obtain ⟨c, hc, hval⟩ := rep_hasVal (hT.rep j) (hT.inTree.1 hi)
  have e := shown_unique hv ⟨c, hc, rfl⟩
  subst e
  obtain ⟨a', out, s', -, e, hI, -⟩ := Mem.step_inv hT k (w.obj k) op
  have hr := hI.rep j
  rw [upd_ne _ hkj] at hr
  refine ⟨out, _, s', e, hI.inTree.2 ?_, shown_hasVal hr hval⟩
  rw [upd_ne _ hkj]
  exact hT.inTree.1 hi

/-- C205, exactly which references `remove(x)` spoils in a tree without duplicates.  If the node of `x` has two children, the
node of the next value is deleted, though that value stays in the tree, and a reference to `x` reads the next value from then
on.  If it has not, the node of `x` is deleted.  All other references read what they read before. -/
theorem C205_remove_exact {dflt : α} {ops : List (WOp α)} {outs : List (Option Avl.Out)} {w : World α}
    (h : World.init.run dflt ops = .ok (outs, w)) (k : Nat) (xs : List α) (hx : Reads w.s (w.s.roots k) xs)
    (hs : xs.Pairwise (· < ·)) (x : α) :
    ∃ b o s', callRemove w.s k (w.obj k) (.val x) = .ok (b, o, s') ∧
      ∀ i v, InTree w.s k i → Shown w.s i v →
        (v ≠ x → (s'.mem i = none ↔ Next xs x v ∧ ∃ j, InTree w.s k j ∧ Shown w.s j x ∧ Inner w.s j) ∧
          (s'.mem i ≠ none → InTree s' k i ∧ Shown s' i v)) ∧
        (v = x → (s'.mem i = none ↔ ¬ Inner w.s i) ∧ (Inner w.s i → ∃ m, Next xs x m ∧ InTree s' k i ∧ Shown s' i m)) := by
  obtain ⟨T, hT⟩ := world_inv' h
  have hxs : xs = inorder (T k) := reads_unique hx (by rw [hT.root k]; exact reads_rep (hT.rep k))
  subst hxs
  obtain ⟨s', e, hI, -, hdead, -⟩ := callRemove_inv hT k (w.obj k) (ref := .val x) (x := x) fun _ => rfl
  refine ⟨_, _, s', e, fun i v hi hv => ?_⟩
  have hmem := hT.inTree.1 hi
  obtain ⟨c, hc, hval⟩ := rep_hasVal (hT.rep k) hmem
  have e := shown_unique hv ⟨c, hc, rfl⟩
  subst e
  have two : Two (T k) x ↔ ∃ j, InTree w.s k j ∧ Shown w.s j x ∧ Inner w.s j := by
    constructor
    · rintro ⟨j, h1, h2⟩
      exact ⟨j, hT.inTree.2 h1.ids, shown_hasVal (hT.rep k) h1, (kids_rep (hT.rep k) (hT.nodup k) h1.ids).1 h2⟩
    · rintro ⟨j, h1, h2, h3⟩
      have hj := hT.inTree.1 h1
      obtain ⟨d, hd, hd'⟩ := rep_hasVal (hT.rep k) hj
      have e := shown_unique h2 ⟨d, hd, rfl⟩
      subst e
      exact ⟨j, hd', (kids_rep (hT.rep k) (hT.nodup k) hj).2 h3⟩
  obtain ⟨h1, h2⟩ := remove_nodes (w.obj k).size (T k) x hs (hT.nodup k) i c.val hval
  have hrep := hI.rep k
  rw [upd_self] at hrep
  have inT : ∀ a, a ∈ ids ((T k).remove (w.obj k).size x).1 → InTree s' k a := fun a ha => hI.inTree.2 (by rwa [upd_self])
  have live : ∀ a y, HasVal a y ((T k).remove (w.obj k).size x).1 → s'.mem a ≠ none ∧ InTree s' k a ∧ Shown s' a y := fun a y hy => by
    obtain ⟨d, hd, he⟩ := shown_hasVal hrep hy
    exact ⟨by rw [hd]; simp, inT a hy.ids, d, hd, he⟩
  rw [← two]
  constructor
  · intro hne
    by_cases hm : Two (T k) x ∧ Next (inorder (T k)) x c.val
    · have hdel := hdead i hmem ((h1 hne).1 hm)
      exact ⟨⟨fun _ => ⟨hm.2, hm.1⟩, fun _ => hdel⟩, fun hc => absurd hdel hc⟩
    · obtain ⟨l1, l2⟩ := live i _ ((h1 hne).2 hm)
      exact ⟨⟨fun hc => absurd hc l1, fun hc => absurd ⟨hc.2, hc.1⟩ hm⟩, fun _ => l2⟩
  · intro he
    have hk := kids_rep (hT.rep k) (hT.nodup k) hmem
    rw [← hk]
    by_cases hK : Kids i (T k)
    · obtain ⟨m, hm, hv'⟩ := (h2 he).1 hK
      obtain ⟨l1, l2⟩ := live i _ hv'
      exact ⟨⟨fun hc => absurd hc l1, fun hc => absurd hK hc⟩, fun _ => ⟨m, hm, l2⟩⟩
    · exact ⟨⟨fun _ => hK, fun _ => hdead i hmem ((h2 he).2 hK)⟩, fun hc => absurd hc hK⟩

/-- C205 fails: in a tree with the values 1, 2 and 3, `remove(2)` deletes the node of 3. -/
theorem C205_counterexample : ¬ C205_statement Nat := by
  intro h
  have e : (match World.init.run 0 [.call 0 (.insert 1), .call 0 (.insert 2), .call 0 (.insert 3)] with
    | .ok (_, w) => decide (follow w.s (w.s.roots 0) [true] = some 2 ∨ follow w.s (w.s.roots 0) [false] = some 2) &&
        decide ((w.s.mem 2).map Cell.val = some 3) &&
        (match step w.s 0 (w.obj 0) (.remove 2) with
        | .ok (_, _, s') => decide (s'.mem 2 = none)
        | _ => false)
    | _ => false) = true := by decide +kernel
  cases hx : World.init.run (0 : Nat) [.call 0 (.insert 1), .call 0 (.insert 2), .call 0 (.insert 3)] with
  | ok p =>
    obtain ⟨outs, w⟩ := p
    rw [hx] at e
    simp only [Bool.and_eq_true, decide_eq_true_eq] at e
    obtain ⟨⟨e1, e2⟩, e3⟩ := e
    have hin : InTree w.s 0 2 := e1.elim (fun a => ⟨_, a⟩) fun a => ⟨_, a⟩
    obtain ⟨c, hc, hv⟩ := Option.map_eq_some_iff.1 e2
    cases hs : step w.s 0 (w.obj 0) (.remove 2) with
    | ok q =>
      obtain ⟨out, o, s'⟩ := q
      rw [hs] at e3
      obtain ⟨d, hd, -⟩ := h 0 _ outs w hx 0 0 2 3 (.remove 2) hin ⟨c, hc, hv⟩ (fun _ => by simp [Drops]) out o s' hs
      simp only [decide_eq_true_eq] at e3
      rw [e3] at hd
      cases hd
    | exc x => rw [hs] at e3; cases e3
    | ub => rw [hs] at e3; cases e3
  | exc x => rw [hx] at e; cases e
  | ub => rw [hx] at e; cases e

/-- The values read through references to 1, 2, 3 and 4 (nodes 0 to 3): at first, after `insert(5)` with a rotation, after
`remove(2)`, where the reference to 3 dangles and the reference to 2 reads 3, and after `remove(5)`. -/
def readAll (ops : List (WOp Nat)) : Option (List (Option Nat)) :=
  match World.init.run 0 ops with
  | .ok (_, w) => some ((List.range 4).map fun i => (w.s.mem i).map Cell.val)
  | _ => none

example : ([[], [.call 0 (.insert 5)], [.call 0 (.insert 5), .call 0 (.remove 2)], [.call 0 (.insert 5), .call 0 (.remove 5)]].map fun l =>
    readAll ([.call 0 (.insert 1), .call 0 (.insert 2), .call 0 (.insert 3), .call 0 (.insert 4)] ++ l)) =
    [some [some 1, some 2, some 3, some 4], some [some 1, some 2, some 3, some 4], some [some 1, some 3, none, some 4],
      some [some 1, some 2, some 3, some 4]] := by decide +kernel

end Verif.Mem
