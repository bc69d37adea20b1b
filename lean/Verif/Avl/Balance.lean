import Verif.Avl.Lemmas

/-! Helper lemmas: stored heights and balance. -/

namespace Verif.Avl
open Spec Tree
set_option linter.unusedSectionVars false
variable {α : Type}

theorem height_eq {t : Tree α} (h : HeightsExact t) : t.height = depth t := by
  cases t with
  | nil => rfl
  | node i p v hh l r => exact h.1

theorem depth_setParent (p) (t : Tree α) : depth (setParent p t) = depth t := by cases t <;> rfl
theorem exact_setParent (p) (t : Tree α) : HeightsExact (setParent p t) ↔ HeightsExact t := by cases t <;> rfl
theorem bal_setParent (k p) (t : Tree α) : BalancedBy k (setParent p t) ↔ BalancedBy k t := by cases t <;> rfl

theorem exact_rotateRight {i p v h} {l r : Tree α} (hl : HeightsExact l) (hr : HeightsExact r)
    (hn : l ≠ .nil ∨ h = max (depth l) (depth r) + 1) : HeightsExact (rotateRight (.node i p v h l r)) := by
  cases l with
  | nil =>
    have : h = max (depth (.nil : Tree α)) (depth r) + 1 := by
      rcases hn with hn | hn
      · exact absurd rfl hn
      · exact hn
    exact ⟨this, hl, hr⟩
  | node i2 p2 v2 h2 l2 r2 =>
    obtain ⟨_, h3, h4⟩ := hl
    simp only [rotateRight, HeightsExact, depth]
    rw [height_eq h3, height_eq h4, height_eq hr]
    exact ⟨rfl, h3, rfl, h4, hr⟩

theorem exact_rotateLeft {i p v h} {l r : Tree α} (hl : HeightsExact l) (hr : HeightsExact r)
    (hn : r ≠ .nil ∨ h = max (depth l) (depth r) + 1) : HeightsExact (rotateLeft (.node i p v h l r)) := by
  cases r with
  | nil =>
    have : h = max (depth l) (depth (.nil : Tree α)) + 1 := by
      rcases hn with hn | hn
      · exact absurd rfl hn
      · exact hn
    exact ⟨this, hl, hr⟩
  | node i2 p2 v2 h2 l2 r2 =>
    obtain ⟨_, h3, h4⟩ := hr
    simp only [rotateLeft, HeightsExact, depth]
    rw [height_eq h3, height_eq h4, height_eq hl]
    refine ⟨?_, ⟨rfl, hl, h3⟩, h4⟩
    omega

theorem rotateLeft_ne_nil {t : Tree α} (h : t ≠ .nil) : rotateLeft t ≠ .nil := by
  unfold rotateLeft
  split
  · simp
  · exact h

theorem rotateRight_ne_nil {t : Tree α} (h : t ≠ .nil) : rotateRight t ≠ .nil := by
  unfold rotateRight
  split
  · simp
  · exact h

theorem exact_doubleRotateRight {i p v h} {l r : Tree α} (hl : HeightsExact l) (hr : HeightsExact r) (hn : l ≠ .nil) :
    HeightsExact (doubleRotateRight (.node i p v h l r)) := by
  refine exact_rotateRight ?_ hr (.inl (rotateLeft_ne_nil hn))
  cases l with
  | nil => exact absurd rfl hn
  | node i2 p2 v2 h2 l2 r2 => exact exact_rotateLeft hl.2.1 hl.2.2 (.inr hl.1)

theorem exact_doubleRotateLeft {i p v h} {l r : Tree α} (hl : HeightsExact l) (hr : HeightsExact r) (hn : r ≠ .nil) :
    HeightsExact (doubleRotateLeft (.node i p v h l r)) := by
  refine exact_rotateLeft hl ?_ (.inl (rotateRight_ne_nil hn))
  cases r with
  | nil => exact absurd rfl hn
  | node i2 p2 v2 h2 l2 r2 => exact exact_rotateRight hr.2.1 hr.2.2 (.inr hr.1)

theorem exact_rotateOnRemove {i p v h} {l r : Tree α} (hl : HeightsExact l) (hr : HeightsExact r) :
    HeightsExact (rotateOnRemove (.node i p v h l r)) := by
  have hself : HeightsExact (.node i p v (max l.height r.height + 1) l r) := by
    rw [height_eq hl, height_eq hr]; exact ⟨rfl, hl, hr⟩
  simp only [rotateOnRemove]
  split
  · split
    · split
      · exact exact_rotateRight hl hr (.inl (by simp))
      · exact exact_doubleRotateRight hl hr (by simp)
    · exact hself
  · split
    · split
      · split
        · exact exact_rotateLeft hl hr (.inl (by simp))
        · exact exact_doubleRotateLeft hl hr (by simp)
      · exact hself
    · exact hself

variable [LinearOrder α]

theorem exact_rotateIfNeeded {i p v h} {l r : Tree α} (x : α) (hl : HeightsExact l) (hr : HeightsExact r) :
    HeightsExact (rotateIfNeeded x (.node i p v h l r)) := by
  have hself : HeightsExact (.node i p v (max l.height r.height + 1) l r) := by
    rw [height_eq hl, height_eq hr]; exact ⟨rfl, hl, hr⟩
  simp only [rotateIfNeeded]
  split
  · split
    · split
      · exact exact_rotateRight hl hr (.inl (by simp))
      · exact exact_doubleRotateRight hl hr (by simp)
    · exact hself
  · split
    · split
      · split
        · exact exact_rotateLeft hl hr (.inl (by simp))
        · exact exact_doubleRotateLeft hl hr (by simp)
      · exact hself
    · exact hself

theorem exact_insert (dups fresh) (x : α) (n) (t : Tree α) : ∀ par, HeightsExact t →
    HeightsExact (t.insert dups fresh x n par).1 ∧
    ((t.insert dups fresh x n par).2.1 = false → (t.insert dups fresh x n par).1 = t) := by
  induction t with
  | nil => intro par _; simp [Tree.insert, HeightsExact, depth]
  | node i p v h l r ihl ihr =>
    intro par hh
    obtain ⟨h1, hl, hr⟩ := hh
    have right : HeightsExact (if (r.insert dups fresh x n (some i)).2.1 then
          rotateIfNeeded x (.node i p v h l (r.insert dups fresh x n (some i)).1)
          else .node i p v h l (r.insert dups fresh x n (some i)).1) ∧
        ((r.insert dups fresh x n (some i)).2.1 = false →
          (if (r.insert dups fresh x n (some i)).2.1 then
          rotateIfNeeded x (.node i p v h l (r.insert dups fresh x n (some i)).1)
          else .node i p v h l (r.insert dups fresh x n (some i)).1) = .node i p v h l r) := by
      obtain ⟨a, b⟩ := ihr (some i) hr
      generalize r.insert dups fresh x n (some i) = res at *
      obtain ⟨r', ins, n'⟩ := res
      simp only at *
      cases ins with
      | true => exact ⟨exact_rotateIfNeeded (h := h) x hl a, fun h' => by cases h'⟩
      | false => rw [b rfl]; exact ⟨⟨h1, hl, hr⟩, fun _ => rfl⟩
    simp only [Tree.insert]
    split
    · obtain ⟨a, b⟩ := ihl (some i) hl
      generalize l.insert dups fresh x n (some i) = res at *
      obtain ⟨l', ins, n'⟩ := res
      simp only at *
      cases ins with
      | true => exact ⟨exact_rotateIfNeeded (h := h) x a hr, fun h' => by cases h'⟩
      | false => rw [b rfl]; exact ⟨⟨h1, hl, hr⟩, fun _ => rfl⟩
    · split
      · exact right
      · split
        · exact right
        · exact ⟨⟨h1, hl, hr⟩, fun _ => rfl⟩

theorem exact_remove (n) (t : Tree α) : ∀ x, HeightsExact t → HeightsExact (t.remove n x).1 := by
  induction t with
  | nil => intro x _; simp [Tree.remove, HeightsExact]
  | node i p v h l r ihl ihr =>
    intro x hh
    obtain ⟨h1, hl, hr⟩ := hh
    unfold Tree.remove
    split
    · exact exact_rotateOnRemove (h := h) (ihl x hl) hr
    · split
      · exact exact_rotateOnRemove (h := h) hl (ihr x hr)
      · split
        · trivial
        · exact exact_rotateOnRemove (h := 0) hl.2.1 hl.2.2
        · exact exact_rotateOnRemove (h := 0) hr.2.1 hr.2.2
        · split
          · exact ⟨h1, hl, hr⟩
          · exact exact_rotateOnRemove (h := h) hl (ihr _ hr)

/-- `t` is a node whose deeper subtree is on the side `x` belongs to. -/
def Leans (x : α) (t : Tree α) : Prop :=
  ∃ i2 p2 v2 h2 l2 r2, t = .node i2 p2 v2 h2 l2 r2 ∧
    ((x < v2 ∧ depth l2 = depth r2 + 1) ∨ (v2 < x ∧ depth r2 = depth l2 + 1))

/-- `rotateIfNeeded` when the left subtree just grew on the outer/inner side given by `x`. -/
theorem bal_rotateIfNeeded_left {i p v h} {l r : Tree α} {x : α} {d : Nat} (hl : HeightsExact l)
    (hr : HeightsExact r) (bl : BalancedBy 1 l) (br : BalancedBy 1 r)
    (hd : depth l = d ∨ depth l = d + 1)
    (hshape : depth l = d + 1 → 0 < d → Leans x l)
    (b1 : d ≤ depth r + 1) (b2 : depth r ≤ d + 1) (hxv : x < v) :
    let t' := rotateIfNeeded x (.node i p v h l r)
    BalancedBy 1 t' ∧ (depth t' = max d (depth r) + 1 ∨
      (depth t' = max d (depth r) + 2 ∧ Leans x t')) := by
  intro t'
  have e : t' = rotateIfNeeded x (.node i p v h l r) := rfl
  simp only [rotateIfNeeded] at e
  rw [height_eq hl, height_eq hr] at e
  split at e
  · next hc =>
    obtain ⟨i2, p2, v2, h2, l2, r2, rfl, hs⟩ := hshape (by omega) (by omega)
    simp only at e
    obtain ⟨c1, c2, bl2, br2⟩ := bl
    rcases hs with ⟨hx, hd2⟩ | ⟨hx, hd2⟩
    · rw [if_pos hx] at e
      rw [e]
      simp only [rotateRight, BalancedBy, depth] at *
      refine ⟨⟨by omega, by omega, bl2, by omega, by omega, br2, br⟩, .inl (by omega)⟩
    · rw [if_neg (not_lt_of_gt hx)] at e
      cases r2 with
      | nil => simp [depth] at hd2
      | node i3 p3 v3 h3 l3 r3 =>
        rw [e]
        obtain ⟨c3, c4, bl3, br3⟩ := br2
        simp only [doubleRotateRight, rotateLeft, rotateRight, BalancedBy, depth] at *
        refine ⟨⟨by omega, by omega, ⟨by omega, by omega, bl2, bl3⟩, by omega, by omega, br3, br⟩, .inl (by omega)⟩
  · split at e
    · omega
    · rw [e]
      refine ⟨⟨by omega, by omega, bl, br⟩, ?_⟩
      by_cases hg : depth l = depth r + 1 ∧ depth l = d + 1
      · right
        refine ⟨by simp only [depth]; omega, _, _, _, _, _, _, rfl, .inl ⟨hxv, hg.1⟩⟩
      · left
        simp only [depth]; omega

/-- Mirror image. -/
theorem bal_rotateIfNeeded_right {i p v h} {l r : Tree α} {x : α} {d : Nat} (hl : HeightsExact l)
    (hr : HeightsExact r) (bl : BalancedBy 1 l) (br : BalancedBy 1 r)
    (hd : depth r = d ∨ depth r = d + 1)
    (hshape : depth r = d + 1 → 0 < d → Leans x r)
    (b1 : d ≤ depth l + 1) (b2 : depth l ≤ d + 1) (hxv : v < x) :
    let t' := rotateIfNeeded x (.node i p v h l r)
    BalancedBy 1 t' ∧ (depth t' = max (depth l) d + 1 ∨
      (depth t' = max (depth l) d + 2 ∧ Leans x t')) := by
  intro t'
  have e : t' = rotateIfNeeded x (.node i p v h l r) := rfl
  simp only [rotateIfNeeded] at e
  rw [height_eq hl, height_eq hr] at e
  split at e
  · omega
  · split at e
    · next hc =>
      obtain ⟨i2, p2, v2, h2, l2, r2, rfl, hs⟩ := hshape (by omega) (by omega)
      simp only at e
      obtain ⟨c1, c2, bl2, br2⟩ := br
      rcases hs with ⟨hx, hd2⟩ | ⟨hx, hd2⟩
      · rw [if_neg (not_lt_of_gt hx)] at e
        cases l2 with
        | nil => simp [depth] at hd2
        | node i3 p3 v3 h3 l3 r3 =>
          rw [e]
          obtain ⟨c3, c4, bl3, br3⟩ := bl2
          simp only [doubleRotateLeft, rotateLeft, rotateRight, BalancedBy, depth] at *
          refine ⟨⟨by omega, by omega, ⟨by omega, by omega, bl, bl3⟩, by omega, by omega, br3, br2⟩, .inl (by omega)⟩
      · rw [if_pos hx] at e
        rw [e]
        simp only [rotateLeft, BalancedBy, depth] at *
        refine ⟨⟨by omega, by omega, ⟨by omega, by omega, bl, bl2⟩, br2⟩, .inl (by omega)⟩
    · rw [e]
      refine ⟨⟨by omega, by omega, bl, br⟩, ?_⟩
      by_cases hg : depth r = depth l + 1 ∧ depth r = d + 1
      · right
        refine ⟨by simp only [depth]; omega, _, _, _, _, _, _, rfl, .inr ⟨hxv, hg.1⟩⟩
      · left
        simp only [depth]; omega

theorem depth_pos_iff (t : Tree α) : 0 < depth t ↔ t ≠ .nil := by
  cases t <;> simp [depth]

/-- Insertion keeps an exact, balanced tree balanced, when duplicates are off or the value is absent. -/
theorem bal_insert (dups fresh) (x : α) (n) (t : Tree α) : ∀ par, HeightsExact t → BalancedBy 1 t →
    (dups = false ∨ x ∉ inorder t) →
    let t' := (t.insert dups fresh x n par).1
    BalancedBy 1 t' ∧ (depth t' = depth t ∨ depth t' = depth t + 1) ∧
    (depth t' = depth t + 1 → 0 < depth t → Leans x t') := by
  induction t with
  | nil => intro par _ _ _; simp [Tree.insert, BalancedBy, depth]
  | node i p v h l r ihl ihr =>
    intro par hh hb hx
    have hex := exact_insert dups fresh x n (.node i p v h l r) par hh
    have hexl := exact_insert dups fresh x n l (some i) hh.2.1
    have hexr := exact_insert dups fresh x n r (some i) hh.2.2
    obtain ⟨h1, hl, hr⟩ := hh
    obtain ⟨c1, c2, bl, br⟩ := hb
    have hxl : dups = false ∨ x ∉ inorder l := hx.imp_right fun hn hm => hn (by simp [inorder, hm])
    have hxr : dups = false ∨ x ∉ inorder r := hx.imp_right fun hn hm => hn (by simp [inorder, hm])
    have hself : let t' := Tree.node i p v h l r
        BalancedBy 1 t' ∧ (depth t' = depth t' ∨ depth t' = depth t' + 1) ∧
        (depth t' = depth t' + 1 → 0 < depth t' → Leans x t') :=
      ⟨⟨c1, c2, bl, br⟩, .inl rfl, fun h' => by omega⟩
    clear hex
    simp only [Tree.insert]
    split
    · next hlt =>
      obtain ⟨a, b, c⟩ := ihl (some i) hl bl hxl
      generalize l.insert dups fresh x n (some i) = res at *
      obtain ⟨l', ins, n'⟩ := res
      simp only at hexl a b c ⊢
      cases ins with
      | false => rw [hexl.2 rfl]; exact hself
      | true =>
        simp only [if_true]
        have key := bal_rotateIfNeeded_left (i := i) (p := p) (h := h) hexl.1 hr a br b c c1 c2 hlt
        simp only at key
        obtain ⟨k1, k2⟩ := key
        refine ⟨k1, ?_, ?_⟩
        · rcases k2 with k2 | ⟨k2, -⟩
          · left; simp only [depth]; exact k2
          · right; simp only [depth]; exact k2
        · intro hd _
          rcases k2 with k2 | ⟨k2, k3⟩
          · simp only [depth] at hd; omega
          · exact k3
    · next hlt =>
      split
      · next hgt =>
        obtain ⟨a, b, c⟩ := ihr (some i) hr br hxr
        generalize r.insert dups fresh x n (some i) = res at *
        obtain ⟨r', ins, n'⟩ := res
        simp only at hexr a b c ⊢
        cases ins with
        | false => rw [hexr.2 rfl]; exact hself
        | true =>
          simp only [if_true]
          have key := bal_rotateIfNeeded_right (i := i) (p := p) (h := h) hl hexr.1 bl a b c c2 c1 hgt
          simp only at key
          obtain ⟨k1, k2⟩ := key
          refine ⟨k1, ?_, ?_⟩
          · rcases k2 with k2 | ⟨k2, -⟩
            · left; simp only [depth]; exact k2
            · right; simp only [depth]; exact k2
          · intro hd _
            rcases k2 with k2 | ⟨k2, k3⟩
            · simp only [depth] at hd; omega
            · exact k3
      · next hgt =>
        have e : x = v := le_antisymm (not_lt.1 hgt) (not_lt.1 hlt)
        have hd : dups = false := hx.resolve_right (by simp [inorder, e])
        simp only [hd, Bool.false_eq_true, if_false]
        exact ⟨hself.1, .inl trivial, hself.2.2⟩

/-- Outcome of `rotateOnRemove` at a node whose left subtree lost at most one level. -/
theorem bal_rotateOnRemove_left {i p v h} {l r : Tree α} {d : Nat} (hl : HeightsExact l) (hr : HeightsExact r)
    (bl : BalancedBy 1 l) (br : BalancedBy 1 r) (hd : depth l = d ∨ depth l + 1 = d)
    (b1 : d ≤ depth r + 1) (b2 : depth r ≤ d + 1) :
    let t' := rotateOnRemove (.node i p v h l r)
    (BalancedBy 1 t' ∧ (depth t' = max d (depth r) + 1 ∨ depth t' = max d (depth r))) ∨
    (BalancedBy 2 t' ∧ depth t' = max d (depth r) + 1 ∧ 4 ≤ depth t') := by
  intro t'
  have e : t' = rotateOnRemove (.node i p v h l r) := rfl
  simp only [rotateOnRemove] at e
  rw [height_eq hl, height_eq hr] at e
  split at e
  · omega
  · split at e
    · next hc =>
      cases r with
      | nil => simp [depth] at hc
      | node i2 p2 v2 h2 l2 r2 =>
        obtain ⟨c1, c2, bl2, br2⟩ := br
        obtain ⟨_, hl2, hr2⟩ := hr
        simp only at e
        rw [height_eq hl2, height_eq hr2] at e
        split at e
        · next hcc =>
          left
          rw [e]
          simp only [rotateLeft, BalancedBy, depth] at *
          refine ⟨⟨by omega, by omega, ⟨by omega, by omega, bl, bl2⟩, br2⟩, by omega⟩
        · next hcc =>
          cases l2 with
          | nil => simp [depth] at *; omega
          | node i3 p3 v3 h3 l3 r3 =>
            obtain ⟨c3, c4, bl3, br3⟩ := bl2
            rw [e]
            by_cases hbad : depth l3 = depth r3 + 1 ∧ depth r2 = max (depth l3) (depth r3) + 1
            · right
              have mono : ∀ t : Tree α, BalancedBy 1 t → BalancedBy 2 t := by
                intro t
                induction t with
                | nil => exact fun _ => trivial
                | node _ _ _ _ l r il ir => rintro ⟨a, b, c, d⟩; exact ⟨by omega, by omega, il c, ir d⟩
              simp only [doubleRotateLeft, rotateLeft, rotateRight, BalancedBy, depth] at *
              refine ⟨⟨by omega, by omega, ⟨by omega, by omega, mono _ bl, mono _ bl3⟩, by omega, by omega,
                mono _ br3, mono _ br2⟩, by omega, by omega⟩
            · left
              simp only [doubleRotateLeft, rotateLeft, rotateRight, BalancedBy, depth] at *
              refine ⟨⟨by omega, by omega, ⟨by omega, by omega, bl, bl3⟩, by omega, by omega, br3, br2⟩, by omega⟩
    · rw [e]
      left
      refine ⟨⟨by omega, by omega, bl, br⟩, ?_⟩
      simp only [depth]; omega

theorem bal_mono {k k' : Nat} (hk : k ≤ k') (t : Tree α) : BalancedBy k t → BalancedBy k' t := by
  induction t with
  | nil => exact fun _ => trivial
  | node _ _ _ _ l r il ir => rintro ⟨a, b, c, d⟩; exact ⟨by omega, by omega, il c, ir d⟩

/-- Mirror image. -/
theorem bal_rotateOnRemove_right {i p v h} {l r : Tree α} {d : Nat} (hl : HeightsExact l) (hr : HeightsExact r)
    (bl : BalancedBy 1 l) (br : BalancedBy 1 r) (hd : depth r = d ∨ depth r + 1 = d)
    (b1 : d ≤ depth l + 1) (b2 : depth l ≤ d + 1) :
    let t' := rotateOnRemove (.node i p v h l r)
    (BalancedBy 1 t' ∧ (depth t' = max (depth l) d + 1 ∨ depth t' = max (depth l) d)) ∨
    (BalancedBy 2 t' ∧ depth t' = max (depth l) d + 1 ∧ 4 ≤ depth t') := by
  intro t'
  have e : t' = rotateOnRemove (.node i p v h l r) := rfl
  simp only [rotateOnRemove] at e
  rw [height_eq hl, height_eq hr] at e
  split at e
  · next hc =>
    cases l with
    | nil => simp [depth] at hc
    | node i2 p2 v2 h2 l2 r2 =>
      obtain ⟨c1, c2, bl2, br2⟩ := bl
      obtain ⟨_, hl2, hr2⟩ := hl
      simp only at e
      rw [height_eq hl2, height_eq hr2] at e
      split at e
      · next hcc =>
        left
        rw [e]
        simp only [rotateRight, BalancedBy, depth] at *
        refine ⟨⟨by omega, by omega, bl2, by omega, by omega, br2, br⟩, by omega⟩
      · next hcc =>
        cases r2 with
        | nil => simp [depth] at *; omega
        | node i3 p3 v3 h3 l3 r3 =>
          obtain ⟨c3, c4, bl3, br3⟩ := br2
          rw [e]
          by_cases hbad : depth r3 = depth l3 + 1 ∧ depth l2 = max (depth l3) (depth r3) + 1
          · right
            have mono := fun t : Tree α => bal_mono (show 1 ≤ 2 by omega) t
            simp only [doubleRotateRight, rotateLeft, rotateRight, BalancedBy, depth] at *
            refine ⟨⟨by omega, by omega, ⟨by omega, by omega, mono _ bl2, mono _ bl3⟩, by omega, by omega,
              mono _ br3, mono _ br⟩, by omega, by omega⟩
          · left
            simp only [doubleRotateRight, rotateLeft, rotateRight, BalancedBy, depth] at *
            refine ⟨⟨by omega, by omega, ⟨by omega, by omega, bl2, bl3⟩, by omega, by omega, br3, br⟩, by omega⟩
  · split at e
    · omega
    · rw [e]
      left
      refine ⟨⟨by omega, by omega, bl, br⟩, ?_⟩
      simp only [depth]; omega

/-- `rotateOnRemove` above a subtree that kept its depth only refreshes the height. -/
theorem rotateOnRemove_same {i p v h} {l r : Tree α} (hl : HeightsExact l) (hr : HeightsExact r)
    (b1 : depth l ≤ depth r + 1) (b2 : depth r ≤ depth l + 1) :
    rotateOnRemove (.node i p v h l r) = .node i p v (max (depth l) (depth r) + 1) l r := by
  simp only [rotateOnRemove]
  rw [height_eq hl, height_eq hr, if_neg (by omega), if_neg (by omega)]

/-- One removal from a balanced tree. -/
theorem bal_remove (n) (t : Tree α) : ∀ x, HeightsExact t → BalancedBy 1 t →
    let t' := (t.remove n x).1
    (BalancedBy 1 t' ∧ (depth t' = depth t ∨ depth t' + 1 = depth t)) ∨
    (BalancedBy 2 t' ∧ depth t' = depth t ∧ 4 ≤ depth t) := by
  induction t with
  | nil => intro x _ _; simp [Tree.remove, BalancedBy]
  | node i p v h l r ihl ihr =>
    intro x hh hb
    have hexl := fun x => exact_remove n l x hh.2.1
    have hexr := fun x => exact_remove n r x hh.2.2
    obtain ⟨h1, hl, hr⟩ := hh
    obtain ⟨c1, c2, bl, br⟩ := hb
    have mono := fun t : Tree α => bal_mono (show 1 ≤ 2 by omega) t
    have left : ∀ v' x, let t' := rotateOnRemove (.node i p v' h (l.remove n x).1 r)
        (BalancedBy 1 t' ∧ (depth t' = max (depth l) (depth r) + 1 ∨ depth t' + 1 = max (depth l) (depth r) + 1)) ∨
        (BalancedBy 2 t' ∧ depth t' = max (depth l) (depth r) + 1 ∧ 4 ≤ max (depth l) (depth r) + 1) := by
      intro v' x
      rcases ihl x hl bl with ⟨a, b⟩ | ⟨a, b, c⟩
      · have := bal_rotateOnRemove_left (i := i) (p := p) (v := v') (h := h) (hexl x) hr a br b c1 c2
        rcases this with ⟨k1, k2⟩ | ⟨k1, k2, k3⟩
        · left; exact ⟨k1, by omega⟩
        · right; exact ⟨k1, by omega, by omega⟩
      · right
        rw [rotateOnRemove_same (hexl x) hr (by omega) (by omega)]
        simp only [BalancedBy, depth]
        exact ⟨⟨by omega, by omega, a, mono _ br⟩, by omega, by omega⟩
    have right : ∀ v' x, let t' := rotateOnRemove (.node i p v' h l (r.remove n x).1)
        (BalancedBy 1 t' ∧ (depth t' = max (depth l) (depth r) + 1 ∨ depth t' + 1 = max (depth l) (depth r) + 1)) ∨
        (BalancedBy 2 t' ∧ depth t' = max (depth l) (depth r) + 1 ∧ 4 ≤ max (depth l) (depth r) + 1) := by
      intro v' x
      rcases ihr x hr br with ⟨a, b⟩ | ⟨a, b, c⟩
      · have := bal_rotateOnRemove_right (i := i) (p := p) (v := v') (h := h) hl (hexr x) bl a b c2 c1
        rcases this with ⟨k1, k2⟩ | ⟨k1, k2, k3⟩
        · left; exact ⟨k1, by omega⟩
        · right; exact ⟨k1, by omega, by omega⟩
      · right
        rw [rotateOnRemove_same hl (hexr x) (by omega) (by omega)]
        simp only [BalancedBy, depth]
        exact ⟨⟨by omega, by omega, mono _ bl, a⟩, by omega, by omega⟩
    unfold Tree.remove
    split
    · exact left v x
    · split
      · exact right v x
      · split
        · left; simp [BalancedBy, depth]
        · left
          simp only [setParent]
          rw [rotateOnRemove_same hl.2.1 hl.2.2 bl.1 bl.2.1]
          refine ⟨bl, ?_⟩
          simp only [depth]; omega
        · left
          simp only [setParent]
          rw [rotateOnRemove_same hr.2.1 hr.2.2 br.1 br.2.1]
          refine ⟨br, ?_⟩
          simp only [depth]; omega
        · split
          · left; exact ⟨⟨c1, c2, bl, br⟩, .inl rfl⟩
          · exact right _ _

end Verif.Avl
