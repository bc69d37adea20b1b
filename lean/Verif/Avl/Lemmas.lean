import Verif.Avl.Spec
import Mathlib.Order.Basic
import Mathlib.Data.List.Perm.Basic

/-! Helper lemmas: content and order. -/

namespace Verif.Avl
open Spec Tree
set_option linter.unusedSectionVars false
variable {α : Type}

theorem inorder_rotateRight (t : Tree α) : inorder (rotateRight t) = inorder t := by
  unfold rotateRight; split <;> simp [inorder]

theorem inorder_rotateLeft (t : Tree α) : inorder (rotateLeft t) = inorder t := by
  unfold rotateLeft; split <;> simp [inorder]

theorem inorder_doubleRotateRight (t : Tree α) : inorder (doubleRotateRight t) = inorder t := by
  unfold doubleRotateRight
  split
  · rw [inorder_rotateRight]; simp only [inorder]; rw [inorder_rotateLeft]
  · rfl

theorem inorder_doubleRotateLeft (t : Tree α) : inorder (doubleRotateLeft t) = inorder t := by
  unfold doubleRotateLeft
  split
  · rw [inorder_rotateLeft]; simp only [inorder]; rw [inorder_rotateRight]
  · rfl

theorem inorder_rotateOnRemove (t : Tree α) : inorder (rotateOnRemove t) = inorder t := by
  unfold rotateOnRemove
  split
  · rfl
  · simp only
    split
    · split
      · split
        · rw [inorder_rotateRight]; rfl
        · rw [inorder_doubleRotateRight]; rfl
      · rfl
    · split
      · split
        · split
          · rw [inorder_rotateLeft]; rfl
          · rw [inorder_doubleRotateLeft]; rfl
        · rfl
      · rfl

theorem inorder_setParent (p) (t : Tree α) : inorder (setParent p t) = inorder t := by
  cases t <;> rfl

theorem leftmost_eq (t : Tree α) : leftmost t = (inorder t).head? := by
  induction t with
  | nil => rfl
  | node i p v h l r ihl ihr =>
    cases l with
    | nil => rfl
    | node i2 p2 v2 h2 l2 r2 =>
      unfold leftmost
      rw [ihl]
      rw [show inorder (.node i p v h (.node i2 p2 v2 h2 l2 r2) r) =
        inorder (.node i2 p2 v2 h2 l2 r2) ++ v :: inorder r from rfl]
      rw [List.head?_append]
      have : (inorder (Tree.node i2 p2 v2 h2 l2 r2)).head? ≠ none := by
        simp [inorder]
      cases hh : (inorder (Tree.node i2 p2 v2 h2 l2 r2)).head? with
      | none => exact absurd hh this
      | some a => rfl

theorem rightmost_eq (t : Tree α) : rightmost t = (inorder t).getLast? := by
  induction t with
  | nil => rfl
  | node i p v h l r ihl ihr =>
    cases r with
    | nil => simp [rightmost, inorder]
    | node i2 p2 v2 h2 l2 r2 =>
      unfold rightmost
      rw [ihr]
      rw [show inorder (.node i p v h l (.node i2 p2 v2 h2 l2 r2)) =
        inorder l ++ v :: inorder (.node i2 p2 v2 h2 l2 r2) from rfl]
      rw [List.getLast?_append, List.getLast?_cons]
      cases hh : (inorder (Tree.node i2 p2 v2 h2 l2 r2)).getLast? with
      | none => simp [inorder] at hh
      | some a => simp

theorem nodes_eq (t : Tree α) : Avl.nodes t = (inorder t).length := by
  induction t with
  | nil => rfl
  | node i p v h l r ihl ihr => simp [Avl.nodes, inorder, ihl, ihr]; omega

theorem count_eq (t : Tree α) : Spec.count t = (inorder t).length := by
  induction t with
  | nil => rfl
  | node i p v h l r ihl ihr => simp [Spec.count, inorder, ihl, ihr]; omega

variable [LinearOrder α]

theorem inorder_rotateIfNeeded (x : α) (t : Tree α) : inorder (rotateIfNeeded x t) = inorder t := by
  unfold rotateIfNeeded
  split
  · rfl
  · simp only
    split
    · split
      · split
        · rw [inorder_rotateRight]; rfl
        · rw [inorder_doubleRotateRight]; rfl
      · rfl
    · split
      · split
        · split
          · rw [inorder_rotateLeft]; rfl
          · rw [inorder_doubleRotateLeft]; rfl
        · rfl
      · rfl

/-- The modelled root insertion: `rotate_if_needed` does nothing on a leaf. -/
theorem rotateIfNeeded_leaf (x v : α) (i : Nat) (p : Option Nat) :
    rotateIfNeeded x (.node i p v 1 .nil .nil) = .node i p v 1 .nil .nil := by
  simp [rotateIfNeeded, Tree.height]

/-- Sorted (non-strictly) list of values. -/
abbrev Sorted (l : List α) : Prop := l.Pairwise (· ≤ ·)
/-- Strictly sorted. -/
abbrev SSorted (l : List α) : Prop := l.Pairwise (· < ·)

theorem sorted_node {R : α → α → Prop} (htr : ∀ a b c, R a b → R b c → R a c) (a b : List α) (v : α) :
    (a ++ v :: b).Pairwise R ↔ a.Pairwise R ∧ b.Pairwise R ∧ (∀ y ∈ a, R y v) ∧ (∀ y ∈ b, R v y) := by
  rw [List.pairwise_append, List.pairwise_cons]
  constructor
  · rintro ⟨h1, ⟨h2, h3⟩, h4⟩
    exact ⟨h1, h3, fun y hy => h4 y hy v List.mem_cons_self, h2⟩
  · rintro ⟨h1, h2, h3, h4⟩
    refine ⟨h1, ⟨h4, h2⟩, fun y hy z hz => ?_⟩
    rcases List.mem_cons.1 hz with rfl | hz
    · exact h3 y hy
    · exact htr _ _ _ (h3 y hy) (h4 z hz)

theorem sorted_iff (a b : List α) (v : α) :
    Sorted (a ++ v :: b) ↔ Sorted a ∧ Sorted b ∧ (∀ y ∈ a, y ≤ v) ∧ (∀ y ∈ b, v ≤ y) :=
  sorted_node (R := (· ≤ ·)) (fun _ _ _ h h' => le_trans h h') a b v

theorem ssorted_iff (a b : List α) (v : α) :
    SSorted (a ++ v :: b) ↔ SSorted a ∧ SSorted b ∧ (∀ y ∈ a, y < v) ∧ (∀ y ∈ b, v < y) :=
  sorted_node (R := (· < ·)) (fun _ _ _ h h' => lt_trans h h') a b v

theorem SSorted.sorted {l : List α} (h : SSorted l) : Sorted l := h.imp le_of_lt

/-- `insert`: content, order, result and counter. -/
theorem insert_spec (dups : Bool) (fresh : Nat) (x : α) (n : Nat) (t : Tree α) : ∀ par, Sorted (inorder t) →
    let res := t.insert dups fresh x n par
    (res.2.1 = true ↔ dups = true ∨ x ∉ inorder t) ∧
    (res.2.1 = true → (inorder res.1).Perm (x :: inorder t) ∧ Sorted (inorder res.1) ∧ res.2.2 = (n + 1) % W) ∧
    (res.2.1 = false → res.1 = t ∧ res.2.2 = n) ∧
    (res.2.1 = true → dups = false → SSorted (inorder t) → SSorted (inorder res.1)) := by
  induction t with
  | nil =>
    intro par _
    simp [Tree.insert, inorder]
  | node i p v h l r ihl ihr =>
    intro par hs
    have hs0 := hs
    rw [show inorder (.node i p v h l r) = inorder l ++ v :: inorder r from rfl, sorted_iff] at hs
    obtain ⟨hl, hr, hlv, hrv⟩ := hs
    simp only [Tree.insert]
    split
    · next hxv =>
      obtain ⟨h1, h2, h3, h4⟩ := ihl (some i) hl
      generalize Tree.insert dups fresh x n (some i) l = res at *
      obtain ⟨l', ins, n'⟩ := res
      simp only at *
      have hxr : x ∉ inorder r := fun hm => absurd (hrv x hm) (not_le.2 hxv)
      have hmem : x ∈ inorder (.node i p v h l r) ↔ x ∈ inorder l := by
        simp only [inorder, List.mem_append, List.mem_cons]
        constructor
        · rintro (a | a | a)
          · exact a
          · exact absurd a (ne_of_lt hxv)
          · exact absurd a hxr
        · exact .inl
      refine ⟨by rw [hmem]; exact h1, fun hi => ?_, fun hi => ?_, fun hi hd hss => ?_⟩
      · obtain ⟨hp, hso, hn⟩ := h2 hi
        rw [if_pos hi, inorder_rotateIfNeeded]
        refine ⟨?_, ?_, hn⟩
        · show (inorder l' ++ v :: inorder r).Perm (x :: (inorder l ++ v :: inorder r))
          exact hp.append_right _
        · show Sorted (inorder l' ++ v :: inorder r)
          rw [sorted_iff]
          refine ⟨hso, hr, fun y hy => ?_, hrv⟩
          rcases List.mem_cons.1 (hp.mem_iff.1 hy) with rfl | hy'
          · exact le_of_lt hxv
          · exact hlv y hy'
      · obtain ⟨e, hn⟩ := h3 hi
        rw [if_neg (by simp [hi]), e]
        exact ⟨rfl, hn⟩
      · rw [if_pos hi, inorder_rotateIfNeeded]
        rw [show inorder (.node i p v h l r) = inorder l ++ v :: inorder r from rfl, ssorted_iff] at hss
        show SSorted (inorder l' ++ v :: inorder r)
        rw [ssorted_iff]
        refine ⟨h4 hi hd hss.1, hss.2.1, fun y hy => ?_, hss.2.2.2⟩
        rcases List.mem_cons.1 ((h2 hi).1.mem_iff.1 hy) with rfl | hy'
        · exact hxv
        · exact hss.2.2.1 y hy'
    · next hxv =>
      have hvx : v ≤ x := not_lt.1 hxv
      have right : (v < x ∨ dups = true) → ∀ (res : Tree α × Bool × Nat),
          ((res.2.1 = true ↔ dups = true ∨ x ∉ inorder r) ∧
          (res.2.1 = true → (inorder res.1).Perm (x :: inorder r) ∧ Sorted (inorder res.1) ∧ res.2.2 = (n + 1) % W) ∧
          (res.2.1 = false → res.1 = r ∧ res.2.2 = n) ∧
          (res.2.1 = true → dups = false → SSorted (inorder r) → SSorted (inorder res.1))) →
          let out : Tree α × Bool × Nat :=
            (if res.2.1 then rotateIfNeeded x (.node i p v h l res.1) else .node i p v h l res.1, res.2.1, res.2.2)
          (out.2.1 = true ↔ dups = true ∨ x ∉ inorder (.node i p v h l r)) ∧
          (out.2.1 = true → (inorder out.1).Perm (x :: inorder (.node i p v h l r)) ∧ Sorted (inorder out.1) ∧
            out.2.2 = (n + 1) % W) ∧
          (out.2.1 = false → out.1 = .node i p v h l r ∧ out.2.2 = n) ∧
          (out.2.1 = true → dups = false → SSorted (inorder (.node i p v h l r)) → SSorted (inorder out.1)) := by
        rintro hor ⟨r', ins, n'⟩ ⟨h1, h2, h3, h4⟩
        simp only at *
        have hmem : (dups = true ∨ x ∉ inorder (.node i p v h l r)) ↔ (dups = true ∨ x ∉ inorder r) := by
          by_cases hd : dups = true
          · simp [hd]
          · have hlt : v < x := hor.resolve_right hd
            have hxl : x ∉ inorder l := fun hm => absurd (hlv x hm) (not_le.2 hlt)
            refine or_congr_right (not_congr ?_)
            simp only [inorder, List.mem_append, List.mem_cons]
            constructor
            · rintro (a | a | a)
              · exact absurd a hxl
              · exact absurd a (ne_of_gt hlt)
              · exact a
            · exact fun a => .inr (.inr a)
        refine ⟨by rw [hmem]; exact h1, fun hi => ?_, fun hi => ?_, fun hi hd hss => ?_⟩
        · obtain ⟨hp, hso, hn⟩ := h2 hi
          rw [if_pos hi, inorder_rotateIfNeeded]
          refine ⟨?_, ?_, hn⟩
          · show (inorder l ++ v :: inorder r').Perm (x :: (inorder l ++ v :: inorder r))
            refine (List.Perm.append_left _ (hp.cons v)).trans ?_
            refine (List.Perm.append_left _ (List.Perm.swap x v _)).trans ?_
            exact List.perm_middle
          · show Sorted (inorder l ++ v :: inorder r')
            rw [sorted_iff]
            refine ⟨hl, hso, hlv, fun y hy => ?_⟩
            rcases List.mem_cons.1 (hp.mem_iff.1 hy) with rfl | hy'
            · exact hvx
            · exact hrv y hy'
        · obtain ⟨e, hn⟩ := h3 hi
          rw [if_neg (by simp [hi]), e]
          exact ⟨rfl, hn⟩
        · rw [if_pos hi, inorder_rotateIfNeeded]
          rw [show inorder (.node i p v h l r) = inorder l ++ v :: inorder r from rfl, ssorted_iff] at hss
          show SSorted (inorder l ++ v :: inorder r')
          rw [ssorted_iff]
          refine ⟨hss.1, h4 hi hd hss.2.1, hss.2.2.1, fun y hy => ?_⟩
          rcases List.mem_cons.1 ((h2 hi).1.mem_iff.1 hy) with rfl | hy'
          · exact hor.resolve_right (by simp [hd])
          · exact hss.2.2.2 y hy'
      split
      · next hlt => exact right (.inl hlt) _ (ihr (some i) hr)
      · next hlt =>
        split
        · next hd => exact right (.inr hd) _ (ihr (some i) hr)
        · next hd =>
          have e : x = v := le_antisymm (not_lt.1 hlt) hvx
          simp only [Bool.not_eq_true] at hd
          subst e
          simp [hd, inorder]

/-- `remove`: content, order, result and counter. -/
theorem remove_spec (n : Nat) (t : Tree α) : ∀ x, Sorted (inorder t) →
    let res := t.remove n x
    (res.2.1 = true ↔ x ∈ inorder t) ∧
    (res.2.1 = true → (inorder t).Perm (x :: inorder res.1) ∧ res.2.2 = (n + W - 1) % W) ∧
    (res.2.1 = false → inorder res.1 = inorder t ∧ res.2.2 = n) ∧
    Sorted (inorder res.1) ∧
    (SSorted (inorder t) → SSorted (inorder res.1)) := by
  induction t with
  | nil =>
    intro x _
    simp [Tree.remove, inorder]
  | node i p v h l r ihl ihr =>
    intro x hs
    rw [show inorder (.node i p v h l r) = inorder l ++ v :: inorder r from rfl, sorted_iff] at hs
    obtain ⟨hl, hr, hlv, hrv⟩ := hs
    unfold Tree.remove
    split
    · next hxv =>
      obtain ⟨h1, h2, h3, h4, h5⟩ := ihl x hl
      generalize Tree.remove n l x = res at *
      obtain ⟨l', rem, n'⟩ := res
      simp only [inorder_rotateOnRemove] at *
      have hxr : x ∉ inorder r := fun hm => absurd (hrv x hm) (not_le.2 hxv)
      have hmem : x ∈ inorder (.node i p v h l r) ↔ x ∈ inorder l := by
        simp only [inorder, List.mem_append, List.mem_cons]
        constructor
        · rintro (a | a | a)
          · exact a
          · exact absurd a (ne_of_lt hxv)
          · exact absurd a hxr
        · exact .inl
      have hsub : ∀ y, y ∈ inorder l' → y ∈ inorder l := by
        intro y hy
        cases hrem : rem with
        | true => exact (h2 hrem).1.mem_iff.2 (List.mem_cons_of_mem _ hy)
        | false => rw [← (h3 hrem).1]; exact hy
      refine ⟨by rw [hmem]; exact h1, fun hi => ?_, fun hi => ?_, ?_, fun hss => ?_⟩
      · refine ⟨?_, (h2 hi).2⟩
        show (inorder l ++ v :: inorder r).Perm (x :: (inorder l' ++ v :: inorder r))
        exact (h2 hi).1.append_right _
      · refine ⟨?_, (h3 hi).2⟩
        show inorder l' ++ v :: inorder r = inorder l ++ v :: inorder r
        rw [(h3 hi).1]
      · show Sorted (inorder l' ++ v :: inorder r)
        rw [sorted_iff]
        exact ⟨h4, hr, fun y hy => hlv y (hsub y hy), hrv⟩
      · rw [show inorder (.node i p v h l r) = inorder l ++ v :: inorder r from rfl, ssorted_iff] at hss
        show SSorted (inorder l' ++ v :: inorder r)
        rw [ssorted_iff]
        exact ⟨h5 hss.1, hss.2.1, fun y hy => hss.2.2.1 y (hsub y hy), hss.2.2.2⟩
    · next hxv =>
      split
      · next hvx =>
        obtain ⟨h1, h2, h3, h4, h5⟩ := ihr x hr
        generalize Tree.remove n r x = res at *
        obtain ⟨r', rem, n'⟩ := res
        simp only [inorder_rotateOnRemove] at *
        have hxl : x ∉ inorder l := fun hm => absurd (hlv x hm) (not_le.2 hvx)
        have hmem : x ∈ inorder (.node i p v h l r) ↔ x ∈ inorder r := by
          simp only [inorder, List.mem_append, List.mem_cons]
          constructor
          · rintro (a | a | a)
            · exact absurd a hxl
            · exact absurd a (ne_of_gt hvx)
            · exact a
          · exact fun a => .inr (.inr a)
        have hsub : ∀ y, y ∈ inorder r' → y ∈ inorder r := by
          intro y hy
          cases hrem : rem with
          | true => exact (h2 hrem).1.mem_iff.2 (List.mem_cons_of_mem _ hy)
          | false => rw [← (h3 hrem).1]; exact hy
        refine ⟨by rw [hmem]; exact h1, fun hi => ?_, fun hi => ?_, ?_, fun hss => ?_⟩
        · refine ⟨?_, (h2 hi).2⟩
          show (inorder l ++ v :: inorder r).Perm (x :: (inorder l ++ v :: inorder r'))
          refine (List.Perm.append_left _ ((h2 hi).1.cons v)).trans ?_
          refine (List.Perm.append_left _ (List.Perm.swap x v _)).trans ?_
          exact List.perm_middle
        · refine ⟨?_, (h3 hi).2⟩
          show inorder l ++ v :: inorder r' = inorder l ++ v :: inorder r
          rw [(h3 hi).1]
        · show Sorted (inorder l ++ v :: inorder r')
          rw [sorted_iff]
          exact ⟨hl, h4, hlv, fun y hy => hrv y (hsub y hy)⟩
        · rw [show inorder (.node i p v h l r) = inorder l ++ v :: inorder r from rfl, ssorted_iff] at hss
          show SSorted (inorder l ++ v :: inorder r')
          rw [ssorted_iff]
          exact ⟨hss.1, h5 hss.2.1, hss.2.2.1, fun y hy => hss.2.2.2 y (hsub y hy)⟩
      · next hvx =>
        have e : x = v := le_antisymm (not_lt.1 hvx) (not_lt.1 hxv)
        subst e
        split
        · simp [inorder]
        · simp only [inorder_rotateOnRemove, inorder_setParent]
          refine ⟨by simp [inorder], fun _ => ⟨?_, trivial⟩, by simp, hl, fun hss => ?_⟩
          · rw [show inorder (.node i p x h _ .nil) = inorder _ ++ x :: inorder .nil from rfl]
            exact List.perm_middle.trans (by simp [inorder])
          · rw [show inorder (.node i p x h _ .nil) = inorder _ ++ x :: inorder .nil from rfl, ssorted_iff] at hss
            exact hss.1
        · simp only [inorder_rotateOnRemove, inorder_setParent]
          refine ⟨by simp [inorder], fun _ => ⟨?_, trivial⟩, by simp, hr, fun hss => ?_⟩
          · rw [show inorder (.node i p x h .nil _) = inorder .nil ++ x :: inorder _ from rfl]
            simp [inorder]
          · rw [show inorder (.node i p x h .nil _) = inorder .nil ++ x :: inorder _ from rfl, ssorted_iff] at hss
            exact hss.2.1
        · next li lp lv lh ll lr ri rp rv rh rl rr =>
          generalize hL : (Tree.node li lp lv lh ll lr) = L at *
          generalize hR : (Tree.node ri rp rv rh rl rr) = R at *
          rw [leftmost_eq]
          cases hm : (inorder R).head? with
          | none =>
            exfalso
            rw [← hR] at hm
            simp [inorder] at hm
          | some m =>
            simp only
            obtain ⟨rest, hrest⟩ : ∃ rest, inorder R = m :: rest := by
              cases hh : inorder R with
              | nil => rw [hh] at hm; cases hm
              | cons a as => rw [hh] at hm; injection hm with hm; rw [hm]; exact ⟨as, rfl⟩
            have hmR : m ∈ inorder R := by rw [hrest]; exact List.mem_cons_self
            obtain ⟨h1, h2, h3, h4, h5⟩ := ihr m hr
            have hrem : (Tree.remove n R m).2.1 = true := h1.2 hmR
            generalize Tree.remove n R m = res at *
            obtain ⟨r', rem, n'⟩ := res
            simp only [inorder_rotateOnRemove] at *
            obtain ⟨hp, hn⟩ := h2 hrem
            have hsub : ∀ y, y ∈ inorder r' → y ∈ inorder R := fun y hy =>
              hp.mem_iff.2 (List.mem_cons_of_mem _ hy)
            have hmin : ∀ y ∈ inorder R, m ≤ y := by
              intro y hy
              rw [hrest] at hr hy
              rcases List.mem_cons.1 hy with rfl | hy
              · exact le_refl _
              · exact (List.pairwise_cons.1 hr).1 y hy
            refine ⟨?_, fun _ => ⟨?_, hn⟩, fun h' => ?_, ?_, fun hss => ?_⟩
            · simp [hrem, inorder]
            · show (inorder L ++ x :: inorder R).Perm (x :: (inorder L ++ m :: inorder r'))
              exact List.perm_middle.trans ((List.Perm.append_left _ hp).cons x)
            · rw [hrem] at h'; cases h'
            · show Sorted (inorder L ++ m :: inorder r')
              rw [sorted_iff]
              exact ⟨hl, h4, fun y hy => le_trans (hlv y hy) (hrv m hmR), fun y hy => hmin y (hsub y hy)⟩
            · rw [show inorder (.node i p x h L R) = inorder L ++ x :: inorder R from rfl, ssorted_iff] at hss
              show SSorted (inorder L ++ m :: inorder r')
              rw [ssorted_iff]
              refine ⟨hss.1, h5 hss.2.1, fun y hy => lt_trans (hss.2.2.1 y hy) (hss.2.2.2 m hmR), fun y hy => ?_⟩
              have hnd : (inorder R).Nodup := hss.2.1.imp (fun hlt => ne_of_lt hlt)
              have hne : y ≠ m := by
                rintro rfl
                have := hp.nodup_iff.1 hnd
                exact (List.nodup_cons.1 this).1 hy
              exact lt_of_le_of_ne (hmin y (hsub y hy)) (Ne.symm hne)

theorem contains_spec (x : α) (t : Tree α) : Sorted (inorder t) → (t.contains x = true ↔ x ∈ inorder t) := by
  induction t with
  | nil => intro _; simp [Tree.contains, inorder]
  | node i p v h l r ihl ihr =>
    intro hs
    rw [show inorder (.node i p v h l r) = inorder l ++ v :: inorder r from rfl, sorted_iff] at hs
    obtain ⟨hl, hr, hlv, hrv⟩ := hs
    unfold Tree.contains
    simp only [inorder, List.mem_append, List.mem_cons]
    split
    · next hlt =>
      rw [ihl hl]
      constructor
      · exact .inl
      · rintro (a | a | a)
        · exact a
        · exact absurd a (ne_of_lt hlt)
        · exact absurd (hrv x a) (not_le.2 hlt)
    · next hlt =>
      split
      · next hgt =>
        rw [ihr hr]
        constructor
        · exact fun a => .inr (.inr a)
        · rintro (a | a | a)
          · exact absurd (hlv x a) (not_le.2 hgt)
          · exact absurd a (ne_of_gt hgt)
          · exact a
      · next hgt =>
        have e : x = v := le_antisymm (not_lt.1 hgt) (not_lt.1 hlt)
        simp [e]

end Verif.Avl
